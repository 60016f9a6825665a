import Verif.Proofs.Overwrite
/-!
# Writing the batch of `append_value_set` back
-/
namespace Jmt
open Spec (Entry)

namespace Store

theorem filter_lt_dropLast {l : List (Version × Option Value)} {v : Nat} {y : Option Value}
    (hs : l.Pairwise (fun a b => a.1 < b.1)) (hl : l.getLast? = some (v, y)) :
    l.filter (fun e => decide (e.1 < v)) = l.dropLast := by
  have hl' : l = l.dropLast ++ [(v, y)] := by
    obtain ⟨ys, h⟩ := List.getLast?_eq_some_iff.1 hl
    rw [h]; simp
  generalize l.dropLast = l0 at hl'
  subst hl'
  rw [List.pairwise_append] at hs
  rw [List.filter_append]
  simp only [List.filter_cons, Nat.lt_irrefl, decide_false, Bool.false_eq_true, if_false, List.filter_nil, List.append_nil]
  rw [List.filter_eq_self]
  intro a ha
  have := hs.2.2 a ha (v, y) (by simp)
  simpa using this

/-- `put_value` at a version that may already be the latest one of the key. -/
theorem putValue_over {vh : AMap KeyHash (List (Version × Option Value))} {v : Nat} {k : KeyHash} {x : Option Value}
    (hs : (histOf vh k).Pairwise (fun a b => a.1 < b.1)) (h : ∀ e ∈ histOf vh k, e.1 ≤ v) :
    ∃ vh', putValue vh v k x = .ok vh' ∧
      ∀ k', histOf vh' k' = if k' = k then (histOf vh k).filter (fun e => decide (e.1 < v)) ++ [(v, x)] else histOf vh k' := by
  by_cases hlt : ∀ e ∈ histOf vh k, e.1 < v
  · obtain ⟨vh', h1, h2⟩ := putValue_ok (x := x) hlt
    refine ⟨vh', h1, fun k' => ?_⟩
    rw [h2]
    rw [List.filter_eq_self.2 (fun e he => by simpa using hlt e he)]
  · cases hg : vh.get? k with
    | none => exact absurd (by simp [histOf, hg]) hlt
    | some hist =>
      have hh : histOf vh k = hist := by simp [histOf, hg]
      rw [hh] at hs h hlt
      cases hl : hist.getLast? with
      | none => rw [List.getLast?_eq_none_iff] at hl; subst hl; exact absurd (by simp) hlt
      | some e =>
        obtain ⟨w, y⟩ := e
        have hwv : w = v := by
          have h1 := h _ (List.mem_of_getLast? hl)
          apply Decidable.byContradiction
          intro hne
          apply hlt
          intro e he
          obtain ⟨ys, hy⟩ := List.getLast?_eq_some_iff.1 hl
          rw [hy] at he hs
          rw [List.pairwise_append] at hs
          rcases List.mem_append.1 he with he | he
          · have := hs.2.2 e he (w, y) (by simp); dsimp only at this h1; omega
          · rw [List.mem_singleton.1 he]; dsimp only at h1 ⊢; omega
        subst hwv
        refine ⟨vh.insert k (hist.dropLast ++ [(w, x)]), ?_, fun k' => ?_⟩
        · unfold putValue
          simp only [hg, hl, Nat.lt_irrefl, if_false, if_true]
        · unfold histOf
          rw [AMap.get?_insert]
          by_cases hk : k = k'
          · subst hk; simp [hg, filter_lt_dropLast hs hl]
          · simp [hk, Ne.symm hk]

theorem insertValues_over {V : Nat} : ∀ (L : List ((Version × KeyHash) × Option Value))
    (vh : AMap KeyHash (List (Version × Option Value))), AMap.NodupKeys L → (∀ e ∈ L, e.1.1 = V) →
    (∀ k, (histOf vh k).Pairwise (fun a b => a.1 < b.1)) → (∀ k, ∀ o ∈ histOf vh k, o.1 ≤ V) →
    ∃ vh', insertValues L vh = .ok vh' ∧
      ∀ k, (∃ x, ((V, k), x) ∈ L ∧ histOf vh' k = (histOf vh k).filter (fun e => decide (e.1 < V)) ++ [(V, x)]) ∨
        ((∀ x, ((V, k), x) ∉ L) ∧ histOf vh' k = histOf vh k) := by
  intro L
  induction L with
  | nil => intro vh _ _ _ _; exact ⟨vh, rfl, fun k => .inr ⟨by simp, rfl⟩⟩
  | cons e L ih =>
    obtain ⟨⟨v, k⟩, x⟩ := e
    intro vh hn hV hs hle
    have hv : v = V := hV _ List.mem_cons_self
    subst hv
    obtain ⟨vh1, a1, a2⟩ := putValue_over (x := x) (hs k) (hle k)
    simp only [AMap.NodupKeys, List.map_cons, List.nodup_cons] at hn
    obtain ⟨vh2, b1, b2⟩ := ih vh1 hn.2 (fun e he => hV e (List.mem_cons_of_mem _ he)) (fun k' => by
      rw [a2]
      split
      · rw [List.pairwise_append]
        refine ⟨(hs k).filter _, by simp, ?_⟩
        intro a ha b hb
        rw [List.mem_singleton.1 hb]
        simpa using (List.mem_filter.1 ha).2
      · exact hs k') (fun k' o ho => by
      rw [a2] at ho
      split at ho
      · rcases List.mem_append.1 ho with ho | ho
        · exact hle k o (List.mem_filter.1 ho).1
        · rw [List.mem_singleton.1 ho]; exact Nat.le_refl _
      · exact hle k' o ho)
    refine ⟨vh2, ?_, fun k' => ?_⟩
    · unfold insertValues; rw [a1, ok_bind, b1]
    · by_cases hk : k' = k
      · subst hk
        rcases b2 k' with ⟨x', h1, -⟩ | ⟨h1, h2⟩
        · exact absurd (List.mem_map.2 ⟨_, h1, rfl⟩) hn.1
        · refine .inl ⟨x, by simp, ?_⟩
          rw [h2, a2, if_pos rfl]
      · rcases b2 k' with ⟨x', h1, h2⟩ | ⟨h1, h2⟩
        · exact .inl ⟨x', List.mem_cons_of_mem _ h1, by rw [h2, a2, if_neg hk]⟩
        · refine .inr ⟨fun x' hx' => ?_, by rw [h2, a2, if_neg hk]⟩
          rcases List.mem_cons.1 hx' with h | h
          · exact hk (congrArg (fun e => e.1.2) h)
          · exact h1 x' h

end Store

section
variable {H : Hasher} {s : Store} {init : List ValueSet} {last vs : ValueSet} {low : Nat}

theorem lastWrite_append (a b : ValueSet) (k : KeyHash) : lastWrite (a ++ b) k = (lastWrite b k).or (lastWrite a k) := by
  unfold lastWrite
  rw [List.foldl_append]
  exact lastWrite_foldl b k _

/-- The value part: extending the last value set. -/
theorem values_over {vals : AMap KeyHash (List (Version × Option Value))} (hv : ValInv vals (init ++ [last]))
    {b : AMap (Version × KeyHash) (Option Value)} (hb : ValsOk init.length vs b) :
    ∃ vals', Store.insertValues (b.mergeSort Store.valueKeyLe) vals = .ok vals' ∧
      ValInv vals' (init ++ [last ++ vs]) := by
  have hperm := List.mergeSort_perm b Store.valueKeyLe
  have hnd : AMap.NodupKeys (b.mergeSort Store.valueKeyLe) := by
    unfold AMap.NodupKeys; rw [(hperm.map Prod.fst).nodup_iff]; exact hb.nodup
  have hmem : ∀ v k x, ((v, k), x) ∈ b.mergeSort Store.valueKeyLe ↔ v = init.length ∧ lastWrite vs k = some x := by
    intro v k x
    rw [hperm.mem_iff, AMap.mem_iff_get? hb.nodup, hb.get]
    split
    · next h => simp [h]
    · next h => simp [h]
  have hlt : ∀ k, ∀ o ∈ Store.histOf vals k, o.1 ≤ init.length := by
    rintro k ⟨v, x⟩ ho
    rw [hv.mem] at ho
    cases hg : (init ++ [last])[v]? with
    | none => simp [hg] at ho
    | some ws =>
      have := (List.getElem?_eq_some_iff.1 hg).1
      simp at this; dsimp only; omega
  obtain ⟨vals', a1, a2⟩ := Store.insertValues_over (V := init.length) _ vals hnd (by
    rintro ⟨⟨v, k⟩, x⟩ he
    exact ((hmem v k x).1 he).1) hv.sorted hlt
  refine ⟨vals', a1, fun k => ?_, fun k v x => ?_⟩
  · rcases a2 k with ⟨x, -, h⟩ | ⟨-, h⟩
    · rw [h, List.pairwise_append]
      refine ⟨(hv.sorted k).filter _, by simp, ?_⟩
      intro a ha b hb
      rw [List.mem_singleton.1 hb]
      simpa using (List.mem_filter.1 ha).2
    · rw [h]; exact hv.sorted k
  · have hget : ∀ ws : ValueSet, v ≠ init.length → (init ++ [ws])[v]? = init[v]? := by
      intro ws hne
      by_cases hl : v < init.length
      · rw [List.getElem?_append_left hl]
      · rw [List.getElem?_eq_none (by simp; omega), List.getElem?_eq_none (by omega)]
    have hself : ∀ ws : ValueSet, (init ++ [ws])[init.length]? = some ws := by intro ws; simp
    have hm := hv.mem k v x
    rcases a2 k with ⟨y, h0, h⟩ | ⟨h0, h⟩
    · have hy := ((hmem _ _ _).1 h0).2
      rw [h, List.mem_append, List.mem_filter]
      by_cases hvl : v = init.length
      · subst hvl
        rw [hself]
        simp only [Nat.lt_irrefl, decide_false, Bool.false_eq_true, and_false, false_or, List.mem_singleton, Prod.mk.injEq,
          true_and, Option.bind_some]
        rw [lastWrite_append, hy]
        simp [eq_comm]
      · rw [hm, hget _ hvl, hget _ hvl]
        constructor
        · rintro (⟨h1, -⟩ | h1)
          · exact h1
          · simp only [List.mem_singleton, Prod.mk.injEq] at h1; exact absurd h1.1 hvl
        · intro h1
          refine .inl ⟨h1, ?_⟩
          cases hg : init[v]? with
          | none => rw [hg] at h1; cases h1
          | some ws => simpa using (List.getElem?_eq_some_iff.1 hg).1
    · have hy : lastWrite vs k = none := by
        cases hc : lastWrite vs k with
        | none => rfl
        | some y => exact absurd ((hmem _ _ _).2 ⟨rfl, hc⟩) (h0 y)
      rw [h, hm]
      by_cases hvl : v = init.length
      · subst hvl
        rw [hself, hself]
        simp [lastWrite_append, hy]
      · rw [hget _ hvl, hget _ hvl]

theorem safeDel_of {m : List Entry} {mp : Spec.Map} (hl : Spec.Lists H mp m) (hne : m ≠ [])
    (hs : ∀ pre k post, vs = pre ++ (k, none) :: post → ∃ k' x, (mp.writes pre) k' = some x) : SafeDel H m vs := by
  have key : ∀ (vs : ValueSet) (m : List Entry) (mp : Spec.Map), Spec.Lists H mp m →
      (∀ pre k post, vs = pre ++ (k, none) :: post → ∃ k' x, (mp.writes pre) k' = some x) → SafeDel H m vs := by
    intro vs
    induction vs with
    | nil => intro _ _ _ _; trivial
    | cons w ws ih =>
      intro m mp hl hs
      refine ⟨fun hm hw => ?_, ih _ _ (lists_upd hl w.1 w.2) (fun pre k post he => ?_)⟩
      · obtain ⟨k, x⟩ := w
        dsimp only at hw
        subst hw
        obtain ⟨k', x, hx⟩ := hs [] k ws rfl
        have := (hl.mem k' (H.hash x)).2 ⟨x, hx, rfl⟩
        rw [hm] at this; cases this
      · have := hs (w :: pre) k post (by rw [he]; rfl)
        exact this
  exact key vs m mp hl hs

theorem entriesAfter_snoc (H : Hasher) (init : List ValueSet) (ws : ValueSet) :
    entriesAfter H (init ++ [ws]) (init.length + 1) = updAll H (entriesAfter H init init.length) ws := by
  rw [entriesAfter_append]; rfl

theorem updAll_append (H : Hasher) (m : List Entry) (a b : ValueSet) : updAll H m (a ++ b) = updAll H (updAll H m a) b := by
  unfold updAll; rw [List.foldl_append]

/-- What `append_value_set` returns on a store that serves `init ++ [last]`. -/
theorem appendSet {M : Nat → List Entry} {W : Nat → List Nibble → Version}
    (hI : TInv H s.nodes.get? (init ++ [last]).length low M W)
    (hW : 0 < (init ++ [last]).length → W ((init ++ [last]).length - 1) [] = (init ++ [last]).length - 1)
    (hM : ∀ i, i < (init ++ [last]).length → M i = entriesAfter H (init ++ [last]) (i + 1))
    (hF : FreshInv (init ++ [last]) M W) (hval : ValInv s.values (init ++ [last]))
    (hle : init.length + 1 ≤ preGenesisVersion)
    {nk : NodeKey} {l : LeafNode} (hacc : s.getRightmostLeaf = some (nk, l)) (hv : nk.version = init.length)
    (hsafe : NeverEmptied (latestMap (init ++ [last])) vs) :
    ∃ (b : TreeUpdateBatch) (S : List NodeKey), appendValueSet H s.reader vs init.length =
        .ok (sh H (entriesAfter H (init ++ [last ++ vs]) (init.length + 1)) [], b) ∧
      b.staleNodeIndexBatch = S.map (fun k => ⟨init.length, k⟩) ∧ S.Nodup ∧
      (∀ w q, (⟨w, q⟩ : NodeKey) ∈ S → pres (M init.length) [] q ∧ w = W init.length q) ∧
      (W init.length [] = init.length) ∧
      ValsOk init.length vs b.nodeBatch.values ∧
      (sh H (entriesAfter H (init ++ [last ++ vs]) (init.length + 1)) [] ≠ sh H (M init.length) [] → NodeKey.root init.length ∈ S) ∧
      ∀ s' bar, s.writeTreeUpdateBatch b = .ok s' → OldStale s.nodes.get? s.stale (init ++ [last]).length bar M W →
        OwInv H s' (init ++ [last ++ vs]) low bar := by
  have hlen : (init ++ [last]).length = init.length + 1 := by simp
  rw [hlen] at hI hW hM
  simp only [Nat.add_sub_cancel] at hW
  have hW := hW (by omega)
  have hMl := hM init.length (by omega)
  have hlow := hI.lowle
  have ht := hI.tree init.length (by omega) (by omega)
  have hlists : Spec.Lists H (latestMap (init ++ [last])) (M init.length) := by
    rw [hMl]; unfold latestMap; rw [hlen]; exact lists_entriesAfter H _ _
  have hne : M init.length ≠ [] := by
    obtain ⟨k, x, hx⟩ := hsafe.1
    have := (hlists.mem k (H.hash x)).2 ⟨x, hx, rfl⟩
    intro hc; rw [hc] at this; cases this
  obtain ⟨b, S, ver', a1, a2, a3, a4, a5, a6, a7, a8, a9, a10⟩ := append_spec (H := H) (R := s.reader) (vs := vs)
    (hI.nodup _ (by omega)) hne ht hW (by show Except.ok _ = _; rw [hacc]) hv
    (by unfold preGenesisVersion u64Size at *; omega) (safeDel_of hlists hne hsafe.2)
  have hupd : updAll H (M init.length) vs = entriesAfter H (init ++ [last ++ vs]) (init.length + 1) := by
    rw [entriesAfter_snoc, updAll_append, ← entriesAfter_snoc, ← hMl]
  refine ⟨b, S, by rw [← hupd]; exact a1, a6, a7, a8, hW, a5, by rw [← hupd]; exact a10, fun s' bar hw hO => ?_⟩
  obtain ⟨w1, w2, w3, -⟩ := write_inv hw
  obtain ⟨vals', v1, v2⟩ := values_over hval a5
  rw [v1] at w2
  cases w2
  have hG : s'.nodes.get? = overG b.nodeBatch.nodes s.nodes.get? := by rw [w1, get?_extend_overG a2]
  have hlen' : (init ++ [last ++ vs]).length = init.length + 1 := by simp
  have hT : TInv H s'.nodes.get? (init.length + 1) low (updN M init.length (updAll H (M init.length) vs))
      (updN W init.length ver') := by
    rw [hG]
    refine ⟨hI.lowle, fun i hi => ?_, fun i h1 h2 => ?_, fun i hi q hq => ?_, fun k nd hk => ?_⟩
    · by_cases hin : i = init.length
      · subst hin; rw [updN_self]; exact (hI.nodup _ hi).updAll _
      · rw [updN_ne hin]; exact hI.nodup i hi
    · by_cases hin : i = init.length
      · subst hin; rw [updN_self, updN_self, ← over_nb]; exact a4
      · rw [updN_ne hin, updN_ne hin]
        exact (hI.tree i h1 h2).over_later a3 (by omega) (hI.wle i h2)
    · by_cases hin : i = init.length
      · subst hin
        rw [updN_self] at hq ⊢
        rcases a9.new q hq with h | ⟨h, h', -⟩
        · omega
        · rw [h]; exact hI.wle _ hi q h'
      · rw [updN_ne hin] at hq ⊢; exact hI.wle i hi q hq
    · unfold overG at hk
      cases hg : b.nodeBatch.nodes.get? k with
      | none => rw [hg] at hk; exact hI.lt k nd hk
      | some nd' => have := a3 k nd' hg; omega
  have hF' : FreshInv (init ++ [last ++ vs]) (updN M init.length (updAll H (M init.length) vs)) (updN W init.length ver') := by
    intro i hi q hq0 hp u hu1 hu2 ws hws k hk e he hek
    rw [hlen'] at hi
    have hget : ∀ u, u < init.length → (init ++ [last ++ vs])[u]? = (init ++ [last])[u]? := by
      intro u hu
      rw [List.getElem?_append_left hu, List.getElem?_append_left hu]
    by_cases hin : i = init.length
    · subst hin
      rw [updN_self] at hp he hu1
      rcases a9.new q hp with h1 | ⟨h1, h2, h3⟩
      · omega
      · intro hqk
        by_cases hkw : k ∈ vs.map Prod.fst
        · exact h3 k hkw ⟨e, he, hek⟩ hqk
        · have hem : e ∈ M init.length := (mem_updAll_of_not_mem (by rwa [hek])).1 he
          by_cases hun : u = init.length
          · subst hun
            rw [show (init ++ [last ++ vs])[init.length]? = some (last ++ vs) by simp] at hws
            cases hws
            rw [List.map_append, List.mem_append] at hk
            have hk' := hk.resolve_right hkw
            exact hF _ (by rw [hlen]; omega) q hq0 h2 init.length (by omega) (Nat.le_refl _) last (by simp) k hk' e hem hek hqk
          · rw [hget u (by omega)] at hws
            exact hF _ (by rw [hlen]; omega) q hq0 h2 u (by omega) hu2 ws hws k hk e hem hek hqk
    · rw [updN_ne hin] at hp he hu1
      rw [hget u (by omega)] at hws
      exact hF i (by rw [hlen]; omega) q hq0 hp u hu1 hu2 ws hws k hk e he hek
  have hO' : OldStale s'.nodes.get? s'.stale (init ++ [last ++ vs]).length bar (updN M init.length (updAll H (M init.length) vs))
      (updN W init.length ver') := by
    rw [w3]
    have hbar := hO.barle
    rw [hlen] at hbar
    refine hO.grow (by rw [hlen, hlen']; exact Nat.le_refl _) (fun x hx => ?_) (fun k hk => ?_) (fun j hj q hq hp hlt => ?_)
    · rw [a6] at hx
      obtain ⟨k, -, rfl⟩ := List.mem_map.1 hx
      show bar ≤ init.length
      omega
    · rw [hG]
      unfold overG
      cases hg : b.nodeBatch.nodes.get? k with
      | none => rfl
      | some nd => have := a3 k nd hg; omega
    · rw [hlen'] at hj
      refine ⟨j, by rw [hlen]; exact hj, fun t _ h => h, ?_⟩
      by_cases hin : j = init.length
      · subst hin
        rw [updN_self] at hp hlt ⊢
        rcases a9.new q hp with h | ⟨h, h', -⟩
        · omega
        · exact ⟨h', h.symm⟩
      · rw [updN_ne hin] at hp ⊢
        exact ⟨hp, rfl⟩
  refine ⟨⟨_, _, hlen'.symm ▸ hT.resetRoot (by omega), fun _ => ?_, fun i hi => ?_, ?_, ?_⟩, v2⟩
  · rw [hlen', updN_self, setVer_self]
  · rw [hlen'] at hi
    by_cases hin : i = init.length
    · subst hin; rw [updN_self, hupd]
    · rw [updN_ne hin, hM i hi]
      rw [entriesAfter_append_le _ _ _ (by omega), entriesAfter_append_le _ _ _ (by omega)]
  · have := hF'.resetRoot
    rw [hlen'] at this
    simpa using this
  · have := hO'.resetRoot
    rw [hlen'] at this
    simpa using this

end
end Jmt
