import Verif.Proofs.BatchTree
/-!
# `batch_create_subtree_with_existing_leaf` and `batch_insert_at`
-/
namespace Jmt
open Spec (Entry)

section
variable {C : Ctx} {tc tc' : TreeCache} {m m' : List Entry} {ver ver' : List Nibble → Version}
  {p q : List Nibble} {kvs : List Kv} {cache : HashCache}

theorem two_of_ne {l : List Entry} {a b : Entry} (ha : a ∈ l) (hb : b ∈ l) (h : a ≠ b) : 2 ≤ l.length := by
  match l, ha, hb with
  | [c], ha, hb =>
    rw [List.mem_singleton] at ha hb
    exact absurd (ha.trans hb.symm) h
  | _ :: _ :: _, _, _ => simp

/-- The existing leaf in its own slot. -/
theorem batchIsolate_spec (hp : p.length < 64) {e0 : Entry} {b : Nibble} (he : under (p ++ [b]) m' = [e0])
    (habs : ∀ q, p ++ [b] <+: q → Absent C tc q) (ci : CountInv C tc) (hv : ver' (p ++ [b]) = C.V) (cs : Children) :
    ∃ tc', batchIsolate C.H C.V ⟨C.V, p⟩ ⟨e0.1, e0.2⟩ b true cs tc
        = .ok (cs.insert b ⟨C.H.leafHash e0.1 e0.2, C.V, .leaf⟩, tc') ∧ Built C tc tc' m' ver' (p ++ [b]) := by
  obtain ⟨tc2, h1, h2⟩ := batchLeaf_spec he habs ci hv
  refine ⟨tc2, ?_, h2⟩
  unfold batchIsolate
  unfold batchLeaf at h1
  simp only [↓reduceIte, genChild_ok hp, ok_bind]
  cases hp : tc.putNode ⟨C.V, p ++ [b]⟩ (.leaf ⟨e0.1, e0.2⟩) with
  | error e => rw [hp] at h1; simp [bind, Except.bind] at h1
  | ok t =>
    rw [hp] at h1
    simp only [ok_bind, Except.ok.injEq, Prod.mk.injEq] at h1
    obtain ⟨-, -, rfl⟩ := h1
    rfl

/-- `batch_create_subtree_with_existing_leaf`. -/
theorem batchWithLeaf_spec (hm' : NodupE m') (e0 : Entry) :
    ∀ (fuel : Nat) (p : List Nibble) (kvs : List Kv) (tc : TreeCache),
    fuel + p.length = 64 → kvs ≠ [] → KvSorted kvs → p <+: e0.1.nibbles →
    (∀ e, e ∈ under p m' ↔ e ∈ kvs ∨ (e = e0 ∧ ∀ kv ∈ kvs, kv.1 ≠ e0.1)) →
    (∀ q, p <+: q → Absent C tc q) → CountInv C tc → tc.base = C.B →
    (∀ q, pres m' p q → ver' q = C.V) →
    (∀ q, q ≠ p → pres m' p q → (∃ e ∈ kvs, q <+: e.1.nibbles) → CacheOk C.H cache m' q) →
    ∃ tc', batchWithLeaf C.H cache C.V ⟨e0.1, e0.2⟩ fuel ⟨C.V, p⟩ kvs p.length tc
        = .ok (⟨C.V, p⟩, canonNode C.H m' ver' p, tc') ∧ Built C tc tc' m' ver' p := by
  intro fuel
  induction fuel with
  | zero =>
    intro p kvs tc hf hne hs hp0 hmem habs ci hb hver _
    obtain ⟨kv, hkv⟩ := List.exists_mem_of_ne_nil kvs hne
    have hpl : p.length = 64 := by omega
    have hpe : ∀ e ∈ under p m', e.1 = e0.1 := by
      intro e he
      have h1 := (mem_under.1 he).2
      have h2 := h1.eq_of_length (by rw [nibbles_length, hpl])
      have h3 := hp0.eq_of_length (by rw [nibbles_length, hpl])
      exact nibbles_inj (h2.symm.trans h3)
    have hk : kv.1 = e0.1 := hpe kv ((hmem kv).2 (.inl hkv))
    have hall : ∀ e, e ∈ under p m' ↔ e ∈ kvs := by
      intro e; rw [hmem]
      exact ⟨fun h => h.elim id (fun h => absurd hk (h.2 kv hkv)), .inl⟩
    have hperm := perm_of_mem hm' hs hall
    have hlen : (under p m').length ≤ 1 := by
      apply Nat.le_of_not_lt
      intro h2
      have := under_length_lt_of_two hm' h2
      omega
    match kvs, hne, hperm, hall with
    | [a], _, hperm, hall =>
      have ha : a.1 = e0.1 := hpe a ((hall a).2 (by simp))
      have hua := List.perm_singleton.1 hperm
      have hv : ver' p = C.V := hver p (pres_self.2 (by rw [hua]; simp))
      obtain ⟨tc2, h1, h2⟩ := batchLeaf_spec hua habs ci hv
      refine ⟨tc2, ?_, h2⟩
      unfold batchWithLeaf
      have hd : decide (([a] : List Kv).map Prod.fst = [(⟨e0.1, e0.2⟩ : LeafNode).keyHash]) = true := by
        simp [ha]
      rw [hd]
      show batchLeaf _ (e0.1, a.2) _ = _
      rw [← ha]; exact h1
    | a :: b :: t, _, hperm, _ =>
      rw [hperm.length_eq] at hlen; simp at hlen
  | succ fuel ih =>
    intro p kvs tc hf hne hs hp0 hmem habs ci hb hver hcache
    obtain ⟨kv, hkv⟩ := List.exists_mem_of_ne_nil kvs hne
    have hune : under p m' ≠ [] := by
      intro h
      have := (hmem kv).2 (.inl hkv)
      rw [h] at this; simp at this
    have hv : ver' p = C.V := hver p (pres_self.2 hune)
    by_cases h1 : kvs.map Prod.fst = [e0.1]
    · match kvs, h1, hs, hmem with
      | [a], h1, hs, hmem =>
        have ha : a.1 = e0.1 := by simpa using h1
        have hall : ∀ e, e ∈ under p m' ↔ e ∈ [a] := by
          intro e; rw [hmem]
          exact ⟨fun h => h.elim id (fun h => absurd ha (h.2 a (by simp))), .inl⟩
        have hua := List.perm_singleton.1 (perm_of_mem hm' hs hall)
        obtain ⟨tc2, b1, b2⟩ := batchLeaf_spec hua habs ci hv
        refine ⟨tc2, ?_, b2⟩
        unfold batchWithLeaf
        have hd : decide (([a] : List Kv).map Prod.fst = [(⟨e0.1, e0.2⟩ : LeafNode).keyHash]) = true := by
          simp [ha]
        rw [hd]
        show batchLeaf _ (e0.1, a.2) _ = _
        rw [← ha]; exact b1
      | [], h1, _, _ => simp at h1
      | _ :: _ :: _, h1, _, _ => simp at h1
    · have h2 : 2 ≤ (under p m').length := by
        by_cases hk : ∀ kv ∈ kvs, kv.1 ≠ e0.1
        · exact two_of_ne ((hmem kv).2 (.inl hkv)) ((hmem e0).2 (.inr ⟨rfl, hk⟩)) (fun h => hk kv hkv (by rw [h]))
        · match kvs, hne, h1, hk, hmem, hs with
          | [a], _, h1, hk, _, _ =>
            exfalso; apply hk
            intro kv hkv
            rw [List.mem_singleton] at hkv; subst hkv
            intro h; exact h1 (by simp [h])
          | a :: b :: t, _, _, _, hmem, hs =>
            refine two_of_ne ((hmem a).2 (.inl (by simp))) ((hmem b).2 (.inl (by simp))) ?_
            have := hs.nodup
            simp only [List.nodup_cons, List.mem_cons, not_or] at this
            exact this.1.1
      have hp := under_length_lt_of_two hm' h2
      have hpre : ∀ e ∈ kvs, p <+: e.1.nibbles := fun e he => (mem_under.1 ((hmem e).2 (.inl he))).2
      obtain ⟨gs, g1, g2, g3, g4⟩ := batchGroups_spec hp hs hpre
      have hbk : ∀ c, p ++ [c] <+: e0.1.nibbles ↔ nib e0.1 p.length = c := snoc_prefix_iff hp hp0
      have hpc : ∀ c q, pres m' (p ++ [c]) q → pres m' p q := fun c q h => (pres_child h.1 h2).1 h
      have hmemc : ∀ c g, (c, g) ∈ gs → ∀ e, e ∈ under (p ++ [c]) m' ↔
          e ∈ g ∨ (e = e0 ∧ nib e0.1 p.length = c ∧ ∀ kv ∈ g, kv.1 ≠ e0.1) := by
        intro c g hg e
        rw [under_snoc_mem, hmem, (g4 c g hg).2.2]
        constructor
        · rintro ⟨h | ⟨rfl, h⟩, h'⟩
          · exact .inl ⟨h, h'⟩
          · exact .inr ⟨rfl, (hbk c).1 h', fun kv hkv => h kv (((g4 c g hg).2.2 kv).1 hkv).1⟩
        · rintro (⟨h, h'⟩ | ⟨rfl, h, h'⟩)
          · exact ⟨.inl h, h'⟩
          · have hc := (hbk c).2 h
            refine ⟨.inr ⟨rfl, fun kv hkv hk => ?_⟩, hc⟩
            exact h' kv (((g4 c g hg).2.2 kv).2 ⟨hkv, by rw [hk]; exact hc⟩) hk
      have hgne : ∀ c g, (c, g) ∈ gs → under (p ++ [c]) m' ≠ [] := by
        intro c g hg hc
        obtain ⟨e, he⟩ := List.exists_mem_of_ne_nil g (g4 c g hg).1
        have := (hmemc c g hg e).2 (.inl he)
        rw [hc] at this; simp at this
      obtain ⟨cs, tc1, b1, b2, b3, b4, b5, b6, b7⟩ := batchLoop_spec (C := C) (m' := m') (ver' := ver') (p := p) (cache := cache) hm'
        (child := fun c g tc => do
          let ck ← (⟨C.V, p⟩ : NodeKey).genChild C.V c
          if nib e0.1 p.length = c then batchWithLeaf C.H cache C.V ⟨e0.1, e0.2⟩ fuel ck g (p.length + 1) tc
          else batchCreateSubtree C.H cache C.V fuel ck g (p.length + 1) tc)
        (Pre := fun c tc => ∀ q, p ++ [c] <+: q → Absent C tc q)
        (fun c tc tc' h1 h2 q hq => (h1 q hq).frame (h2 q hq)) gs g2
        (by
          intro c g hg tc hpre ci hb
          have hca : ∀ q, q ≠ p ++ [c] → pres m' (p ++ [c]) q → (∃ e ∈ g, q <+: e.1.nibbles) → CacheOk C.H cache m' q :=
            fun q hne hq ⟨e, he1, he2⟩ => hcache q (by rintro rfl; exact not_snoc_prefix_self hq.1) (hpc c q hq)
              ⟨e, ((g4 c g hg).2.2 e).1 he1 |>.1, he2⟩
          simp only [genChild_ok hp, ok_bind]
          by_cases hc : nib e0.1 p.length = c
          · rw [if_pos hc]
            have := ih (p ++ [c]) g tc (by simp; omega) (g4 c g hg).1 (g4 c g hg).2.1 ((hbk c).2 hc)
              (by intro e; rw [hmemc c g hg]; simp [hc]) hpre ci hb
              (fun q hq => hver q (hpc c q hq)) hca
            simp only [List.length_append, List.length_singleton] at this
            exact this
          · rw [if_neg hc]
            have := batchCreateSubtree_spec (cache := cache) (ver' := ver') hm' fuel (p ++ [c]) g tc (by simp; omega) (g4 c g hg).1
              (g4 c g hg).2.1 (by intro e; rw [hmemc c g hg]; simp [hc]) hpre ci hb
              (fun q hq => hver q (hpc c q hq)) hca
            simp only [List.length_append, List.length_singleton] at this
            exact this)
        (by
          intro c hc
          obtain ⟨⟨c', g⟩, hg, rfl⟩ := List.mem_map.1 hc
          have hn := hgne c' g hg
          refine ⟨hn, hver _ (hpc c' _ (pres_self.2 hn)), hcache _ snoc_ne (hpc c' _ (pres_self.2 hn)) ?_⟩
          obtain ⟨e, he⟩ := List.exists_mem_of_ne_nil g (g4 c' g hg).1
          exact ⟨e, (((g4 c' g hg).2.2 e).1 he)⟩)
        Children.empty tc Children.Wf.empty ci hb (fun c _ q hq => habs q ((List.prefix_append _ _).trans hq))
      have habs1 : ∀ c, c ∉ gs.map Prod.fst → ∀ q, p ++ [c] <+: q → Absent C tc1 q := by
        intro c hc q hq
        refine (habs q ((List.prefix_append _ _).trans hq)).frame (b7 q ?_)
        intro c' hc' hq'
        refine not_prefix_other hq ?_ hq'
        rintro rfl; exact hc hc'
      have hnog : ∀ c, c ∉ gs.map Prod.fst → ∀ e ∈ kvs, ¬ p ++ [c] <+: e.1.nibbles := by
        intro c hc e he h
        obtain ⟨c', h1, h2⟩ := g3 e he
        by_cases hcc : c = c'
        · subst hcc; exact hc h2
        · exact not_prefix_other h1 hcc h
      have hnot : ∀ c, c ∉ gs.map Prod.fst → c ≠ nib e0.1 p.length → under (p ++ [c]) m' = [] := by
        intro c hc hcb
        rw [List.eq_nil_iff_forall_not_mem]
        intro e he
        rw [under_snoc_mem, hmem] at he
        obtain ⟨h | ⟨rfl, -⟩, h'⟩ := he
        · exact hnog c hc e h h'
        · exact hcb ((hbk c).1 h').symm
      have hsub1 : ∀ c, (c ∈ gs.map Prod.fst ∨ c ≠ nib e0.1 p.length) → SubInv C tc1 m' ver' (p ++ [c]) := by
        intro c hc
        by_cases hcg : c ∈ gs.map Prod.fst
        · exact (b3 c hcg).2
        · exact SubInv.mk0 (hnot c hcg (hc.resolve_left hcg)) (habs1 c hcg)
      have hslot1 : ∀ c, (c ∈ gs.map Prod.fst ∨ c ≠ nib e0.1 p.length) → cs.slots c = canonChild C.H m' ver' (p ++ [c]) := by
        intro c hc
        by_cases hcg : c ∈ gs.map Prod.fst
        · exact (b3 c hcg).1
        · rw [b4 c hcg, canonChild_nil (hnot c hcg (hc.resolve_left hcg))]; rfl
      have hnpre : ∀ c, ¬ p ++ [c] <+: p := fun c => not_snoc_prefix_self
      -- after placing the existing leaf
      have hiso : ∃ cs2 tc2, batchIsolate C.H C.V ⟨C.V, p⟩ ⟨e0.1, e0.2⟩ (nib e0.1 p.length)
            (decide (nib e0.1 p.length ∉ gs.map Prod.fst)) cs tc1 = .ok (cs2, tc2) ∧
          CanonSlots C.H m' ver' p cs2 ∧ cs2.Wf ∧ Same tc1 tc2 ∧ CountInv C tc2 ∧
          (∀ q, (∀ c, ¬ p ++ [c] <+: q) → AgreeAt tc1 tc2 q) ∧ (∀ c, SubInv C tc2 m' ver' (p ++ [c])) := by
        by_cases hbg : nib e0.1 p.length ∈ gs.map Prod.fst
        · have hor : ∀ c, c ∈ gs.map Prod.fst ∨ c ≠ nib e0.1 p.length := fun c =>
            (Decidable.em (c = nib e0.1 p.length)).elim (fun h => .inl (h ▸ hbg)) .inr
          refine ⟨cs, tc1, ?_, fun c => hslot1 c (hor c), b2, Same.refl _, b6, fun _ _ => AgreeAt.refl _ _, fun c => hsub1 c (hor c)⟩
          unfold batchIsolate
          simp [hbg]
        · have he : under (p ++ [nib e0.1 p.length]) m' = [e0] := by
            apply List.perm_singleton.1
            rw [List.perm_ext_iff_of_nodup (nodup_under hm' _) (by simp)]
            intro e
            rw [under_snoc_mem, hmem, List.mem_singleton]
            constructor
            · rintro ⟨h | ⟨h, -⟩, h'⟩
              · exact absurd h' (hnog _ hbg e h)
              · exact h
            · rintro rfl
              have := (hbk _).2 rfl
              refine ⟨.inr ⟨rfl, fun kv hkv hk => hnog _ hbg kv hkv ?_⟩, this⟩
              rw [hk]; exact this
          have hprs : pres m' p (p ++ [nib e0.1 p.length]) := hpc _ _ (pres_self.2 (by rw [he]; simp))
          obtain ⟨tc2, i1, i2⟩ := batchIsolate_spec hp he (habs1 _ hbg) b6 (hver _ hprs) cs
          refine ⟨cs.insert (nib e0.1 p.length) ⟨C.H.leafHash e0.1 e0.2, C.V, .leaf⟩, tc2, ?_, ?_, b2.insert _ _, i2.same, i2.count, fun q hq => i2.agree q (hq _), ?_⟩
          · have : decide (nib e0.1 p.length ∉ gs.map Prod.fst) = true := by simpa using hbg
            rw [this]; exact i1
          · intro c
            by_cases hc : c = nib e0.1 p.length
            · subst hc
              rw [canonChild_one he, hver _ hprs]; simp [Children.insert]
            · rw [← hslot1 c (.inr hc)]; simp [Children.insert, hc]
          · intro c
            by_cases hc : c = nib e0.1 p.length
            · subst hc; exact i2.sub
            · exact (hsub1 c (.inr hc)).frame (fun q hq => i2.agree q (not_prefix_other hq (Ne.symm hc)))
      obtain ⟨cs2, tc2, i1, i2, i3, i4, i5, i6, i7⟩ := hiso
      have habsp : Absent C tc2 p :=
        ((habs p (List.prefix_refl _)).frame (b7 p (fun c _ => hnpre c))).frame (i6 p hnpre)
      obtain ⟨tc3, f1, f2, f3, f4, f5⟩ := batchFinish_spec hm' h2 i2 i3 habsp i5 i7 hv
      refine ⟨tc3, ?_, (b5.trans i4).trans f2, f3, fun q hq => ?_, f5⟩
      · unfold batchWithLeaf
        have hd : decide (kvs.map Prod.fst = [(⟨e0.1, e0.2⟩ : LeafNode).keyHash]) = false := by
          simpa using h1
        rw [hd]
        simp only [nibbleAt_ok hp, g1, ok_bind, b1, i1]
        exact f1
      · have hq' : ∀ c, ¬ p ++ [c] <+: q := fun c h => hq ((List.prefix_append _ _).trans h)
        exact ((b7 q (fun c _ => hq' c)).trans (i6 q hq')).trans (f4 q (by rintro rfl; exact hq (List.prefix_refl _)))

/-- Changing entries and versions outside what is present. -/
theorem SubInv.congr' (h : SubInv C tc m ver p) (hu : (under p m).Perm (under p m'))
    (hv : ∀ q, pres m p q → ver' q = ver q) : SubInv C tc m' ver' p := by
  intro q hq
  refine (h q hq).congr (AgreeAt.refl _ _) ?_ (fun hp => hv q hp) (fun hp => ?_)
  · have hq' := under_perm_of hq hu
    unfold pres
    refine and_congr_right (fun _ => and_congr ?_ ?_)
    · constructor
      · intro h1 h2; rw [h2] at hq'; exact h1 (List.Perm.eq_nil hq')
      · intro h1 h2; rw [h2] at hq'; exact h1 (List.Perm.eq_nil hq'.symm)
    · by_cases hqp : q = p
      · simp [hqp]
      · rw [(under_perm_of (prefix_dropLast hq hqp) hu).length_eq]
  · refine (canonNode_congr (under_perm_of hq hu) ?_).symm
    intro h2 i hi
    refine (hv _ ⟨hq.trans (List.prefix_append _ _), hi, .inr ?_⟩).symm
    rw [List.dropLast_concat]; exact h2

/-- `batch_insert_at` below a non-null node. -/
theorem batchInsertAt_spec (hm : NodupE m) (hm' : NodupE m') :
    ∀ (fuel : Nat) (p : List Nibble) (kvs : List Kv) (tc : TreeCache),
    fuel + p.length = 64 → kvs ≠ [] → KvSorted kvs → (∀ e ∈ kvs, p <+: e.1.nibbles) →
    under p m ≠ [] → SubInv C tc m ver p →
    (∀ e, e ∈ under p m' ↔ e ∈ kvs ∨ (e ∈ under p m ∧ ∀ kv ∈ kvs, kv.1 ≠ e.1)) →
    CountInv C tc → tc.base = C.B →
    (∀ q, p <+: q → (∃ e ∈ kvs, q <+: e.1.nibbles) → ver' q = C.V) →
    (∀ q, p <+: q → ¬ pres m p q → ver' q = C.V) →
    (∀ q, pres m p q → (∀ e ∈ kvs, ¬ q <+: e.1.nibbles) → ver' q = ver q) →
    (∀ q, q ≠ p → pres m' p q → (∃ e ∈ kvs, q <+: e.1.nibbles) → CacheOk C.H cache m' q) →
    ∃ tc', batchInsertAt C.H cache C.V fuel ⟨ver p, p⟩ kvs p.length tc
        = .ok (⟨C.V, p⟩, canonNode C.H m' ver' p, tc') ∧ Built C tc tc' m' ver' p := by
  have hleaf : ∀ (fuel : Nat) (p : List Nibble) (kvs : List Kv) (tc : TreeCache) (e0 : Entry),
      fuel + p.length = 64 → kvs ≠ [] → KvSorted kvs → (∀ e ∈ kvs, p <+: e.1.nibbles) →
      under p m = [e0] → SubInv C tc m ver p →
      (∀ e, e ∈ under p m' ↔ e ∈ kvs ∨ (e ∈ under p m ∧ ∀ kv ∈ kvs, kv.1 ≠ e.1)) →
      CountInv C tc → tc.base = C.B →
      (∀ q, p <+: q → (∃ e ∈ kvs, q <+: e.1.nibbles) → ver' q = C.V) →
      (∀ q, p <+: q → ¬ pres m p q → ver' q = C.V) →
      (∀ q, q ≠ p → pres m' p q → (∃ e ∈ kvs, q <+: e.1.nibbles) → CacheOk C.H cache m' q) →
      ∃ tc', batchInsertAt C.H cache C.V fuel ⟨ver p, p⟩ kvs p.length tc
          = .ok (⟨C.V, p⟩, canonNode C.H m' ver' p, tc') ∧ Built C tc tc' m' ver' p := by
    intro fuel p kvs tc e0 hf hne hs hpre he hsub hmem ci hb hvT hvN hcache
    have htop := hsub.top (by rw [he]; simp)
    obtain ⟨tc1, d1, d2, d3, d4, d5⟩ := deleteNode_spec htop trivial ci true (by rw [canonNode_one he]; rfl)
    have habs : ∀ q, p <+: q → Absent C tc1 q := by
      intro q hq
      by_cases hqp : q = p
      · subst hqp; exact d5
      · exact (hsub.absent_below (by rw [he]; simp) hq hqp).frame (d4 q hqp)
    obtain ⟨tc2, w1, w2⟩ := batchWithLeaf_spec (cache := cache) (ver' := ver') hm' e0 fuel p kvs tc1 hf hne hs
      (mem_under.1 (by rw [he]; simp : e0 ∈ under p m)).2
      (by
        intro e
        rw [hmem, he, List.mem_singleton]
        exact or_congr_right (and_congr_right (fun h => by rw [h]))) habs d3 (d2.base.trans hb)
      (by
        intro q hq
        by_cases hqp : q = p
        · subst hqp
          obtain ⟨kv, hkv⟩ := List.exists_mem_of_ne_nil kvs hne
          exact hvT q hq.1 ⟨kv, hkv, hpre kv hkv⟩
        · exact hvN q hq.1 (not_pres_below hq.1 hqp (by rw [he]; simp))) hcache
    refine ⟨tc2, ?_, d2.trans w2.same, w2.count, fun q hq => ?_, w2.sub⟩
    · unfold batchInsertAt
      rw [if_neg hne, htop.getNode trivial hb, canonNode_one he]
      simp only [ok_bind, d1, NodeKey.setVersion]
      exact w1
    · exact (d4 q (by rintro rfl; exact hq (List.prefix_refl _))).trans (w2.agree q hq)
  intro fuel
  induction fuel with
  | zero =>
    intro p kvs tc hf hne hs hpre hune hsub hmem ci hb hvT hvN hvO hcache
    rcases len_cases (under p m) with h | ⟨e0, h⟩ | h
    · exact absurd h hune
    · exact hleaf 0 p kvs tc e0 hf hne hs hpre h hsub hmem ci hb hvT hvN hcache
    · have := under_length_lt_of_two hm h
      omega
  | succ fuel ih =>
    intro p kvs tc hf hne hs hpre hune hsub hmem ci hb hvT hvN hvO hcache
    rcases len_cases (under p m) with h | ⟨e0, h⟩ | h2
    · exact absurd h hune
    · exact hleaf _ p kvs tc e0 hf hne hs hpre h hsub hmem ci hb hvT hvN hcache
    · have hp := under_length_lt_of_two hm h2
      have htop := hsub.top hune
      obtain ⟨tc1, d1, d2, d3, d4, d5⟩ := deleteNode_spec htop trivial ci false (by rw [canonNode_two h2]; rfl)
      obtain ⟨gs, g1, g2, g3, g4⟩ := batchGroups_spec hp hs hpre
      -- the new tree is not smaller
      have hkeep : ∀ e ∈ under p m, ∃ e' ∈ under p m', e'.1 = e.1 := by
        intro e he
        by_cases hk : ∀ kv ∈ kvs, kv.1 ≠ e.1
        · exact ⟨e, (hmem e).2 (.inr ⟨he, hk⟩), rfl⟩
        · simp only [ne_eq, Classical.not_forall, Decidable.not_not] at hk
          obtain ⟨kv, h1, h2⟩ := hk
          exact ⟨kv, (hmem kv).2 (.inl h1), h2⟩
      have h2' : 2 ≤ (under p m').length := by
        match hu : under p m, h2 with
        | a :: b :: t, _ =>
          obtain ⟨a', ha1, ha2⟩ := hkeep a (by rw [hu]; simp)
          obtain ⟨b', hb1, hb2⟩ := hkeep b (by rw [hu]; simp)
          refine two_of_ne ha1 hb1 ?_
          intro hab
          have hkk : a.1 = b.1 := by rw [← ha2, ← hb2, hab]
          have ha0 : a ∈ m := (mem_under.1 (by rw [hu]; simp : a ∈ under p m)).1
          have hb0 : b ∈ m := (mem_under.1 (by rw [hu]; simp : b ∈ under p m)).1
          have : a = b := by
            have hb0' : (a.1, b.2) ∈ m := by rw [hkk]; exact hb0
            exact Prod.ext hkk (hm.eq_of_mem ha0 hb0')
          have hn := nodup_under hm p
          rw [hu] at hn
          simp only [List.nodup_cons, List.mem_cons, not_or] at hn
          exact hn.1.1 this
      have hpc : ∀ c q, pres m (p ++ [c]) q → pres m p q := fun c q h => (pres_child h.1 h2).1 h
      have hpc' : ∀ c q, pres m' (p ++ [c]) q → pres m' p q := fun c q h => (pres_child h.1 h2').1 h
      have hmemc : ∀ c g, (c, g) ∈ gs → ∀ e, e ∈ under (p ++ [c]) m' ↔
          e ∈ g ∨ (e ∈ under (p ++ [c]) m ∧ ∀ kv ∈ g, kv.1 ≠ e.1) := by
        intro c g hg e
        rw [under_snoc_mem, hmem, (g4 c g hg).2.2, under_snoc_mem]
        constructor
        · rintro ⟨h | ⟨h, h''⟩, h'⟩
          · exact .inl ⟨h, h'⟩
          · exact .inr ⟨⟨h, h'⟩, fun kv hkv => h'' kv (((g4 c g hg).2.2 kv).1 hkv).1⟩
        · rintro (⟨h, h'⟩ | ⟨⟨h, h'⟩, h''⟩)
          · exact ⟨.inl h, h'⟩
          · refine ⟨.inr ⟨h, fun kv hkv hk => ?_⟩, h'⟩
            exact h'' kv (((g4 c g hg).2.2 kv).2 ⟨hkv, by rw [hk]; exact h'⟩) hk
      have hgne : ∀ c g, (c, g) ∈ gs → under (p ++ [c]) m' ≠ [] := by
        intro c g hg hc
        obtain ⟨e, he⟩ := List.exists_mem_of_ne_nil g (g4 c g hg).1
        have := (hmemc c g hg e).2 (.inl he)
        rw [hc] at this; simp at this
      have hsubc : ∀ c, SubInv C tc1 m ver (p ++ [c]) := fun c =>
        (hsub.child h2 c).frame (fun q hq => d4 q (by rintro rfl; exact not_snoc_prefix_self hq))
      obtain ⟨cs, tc2, b1, b2, b3, b4, b5, b6, b7⟩ := batchLoop_spec (C := C) (m' := m') (ver' := ver') (p := p) (cache := cache) hm'
        (child := fun c g tc =>
          match (canonInternal C.H m ver p).child c with
          | some ch => do
            let ck ← (⟨ver p, p⟩ : NodeKey).genChild ch.version c
            batchInsertAt C.H cache C.V fuel ck g (p.length + 1) tc
          | none => do
            let ck ← (⟨ver p, p⟩ : NodeKey).genChild C.V c
            batchCreateSubtree C.H cache C.V fuel ck g (p.length + 1) tc)
        (Pre := fun c tc => SubInv C tc m ver (p ++ [c]))
        (fun c tc tc' h1 h2 => h1.frame h2) gs g2
        (by
          intro c g hg tc hpre' ci hb
          have hca : ∀ q, q ≠ p ++ [c] → pres m' (p ++ [c]) q → (∃ e ∈ g, q <+: e.1.nibbles) → CacheOk C.H cache m' q :=
            fun q hne hq ⟨e, he1, he2⟩ => hcache q (by rintro rfl; exact not_snoc_prefix_self hq.1) (hpc' c q hq)
              ⟨e, ((g4 c g hg).2.2 e).1 he1 |>.1, he2⟩
          have hch : (canonInternal C.H m ver p).child c = canonChild C.H m ver (p ++ [c]) := rfl
          simp only [genChild_ok hp, ok_bind, hch]
          cases hcc : canonChild C.H m ver (p ++ [c]) with
          | none =>
            have hnil : under (p ++ [c]) m = [] := by
              apply Classical.byContradiction
              intro hn
              have := (canonChild_isSome (H := C.H) (ver := ver)).2 hn
              rw [hcc] at this; simp at this
            have := batchCreateSubtree_spec (cache := cache) (ver' := ver') hm' fuel (p ++ [c]) g tc (by simp; omega) (g4 c g hg).1
              (g4 c g hg).2.1 (by intro e; rw [hmemc c g hg, hnil]; simp) (fun q hq => hpre'.absent_nil hnil hq) ci hb
              (fun q hq => hvN q ((List.prefix_append _ _).trans hq.1) (fun hq' => hq'.2.1 (under_nil_of_prefix hq.1 hnil))) hca
            simp only [List.length_append, List.length_singleton] at this
            exact this
          | some ch =>
            obtain ⟨-, hcv, -, -, hn⟩ := canonChild_some hcc
            have := ih (p ++ [c]) g tc (by simp; omega) (g4 c g hg).1 (g4 c g hg).2.1
              (fun e he => (((g4 c g hg).2.2 e).1 he).2) hn hpre' (hmemc c g hg) ci hb
              (fun q hq ⟨e, he1, he2⟩ => hvT q ((List.prefix_append _ _).trans hq) ⟨e, (((g4 c g hg).2.2 e).1 he1).1, he2⟩)
              (fun q hq hnp => hvN q ((List.prefix_append _ _).trans hq) (fun h => hnp ((pres_child hq h2).2 h)))
              (fun q hq hno => hvO q (hpc c q hq) (fun e he hqe => hno e (((g4 c g hg).2.2 e).2 ⟨he, hq.1.trans hqe⟩) hqe)) hca
            simp only [List.length_append, List.length_singleton] at this
            simp only [hcv]
            exact this)
        (by
          intro c hc
          obtain ⟨⟨c', g⟩, hg, rfl⟩ := List.mem_map.1 hc
          have hn := hgne c' g hg
          obtain ⟨e, he⟩ := List.exists_mem_of_ne_nil g (g4 c' g hg).1
          have hke := ((g4 c' g hg).2.2 e).1 he
          exact ⟨hn, hvT _ (List.prefix_append _ _) ⟨e, hke⟩, hcache _ snoc_ne (hpc' c' _ (pres_self.2 hn)) ⟨e, hke⟩⟩)
        (canonInternal C.H m ver p).children tc1 canonChildren_wf d3 (d2.base.trans hb) (fun c _ => hsubc c)
      have hnog : ∀ c, c ∉ gs.map Prod.fst → ∀ e ∈ kvs, ¬ p ++ [c] <+: e.1.nibbles := by
        intro c hc e he h
        obtain ⟨c', h1, h2⟩ := g3 e he
        by_cases hcc : c = c'
        · subst hcc; exact hc h2
        · exact not_prefix_other h1 hcc h
      have hperm : ∀ c, c ∉ gs.map Prod.fst → (under (p ++ [c]) m).Perm (under (p ++ [c]) m') := by
        intro c hc
        rw [List.perm_ext_iff_of_nodup (nodup_under hm _) (nodup_under hm' _)]
        intro e
        rw [under_snoc_mem (m := m'), hmem, under_snoc_mem]
        constructor
        · rintro ⟨h, h'⟩
          refine ⟨.inr ⟨h, fun kv hkv hk => hnog c hc kv hkv ?_⟩, h'⟩
          rw [hk]; exact h'
        · rintro ⟨h | ⟨h, -⟩, h'⟩
          · exact absurd h' (hnog c hc e h)
          · exact ⟨h, h'⟩
      have hvc : ∀ c, c ∉ gs.map Prod.fst → ∀ q, pres m (p ++ [c]) q → ver' q = ver q := by
        intro c hc q hq
        exact hvO q (hpc c q hq) (fun e he hqe => hnog c hc e he (hq.1.trans hqe))
      obtain ⟨kv, hkv⟩ := List.exists_mem_of_ne_nil kvs hne
      have hv : ver' p = C.V := hvT p (List.prefix_refl _) ⟨kv, hkv, hpre kv hkv⟩
      obtain ⟨tc3, f1, f2, f3, f4, f5⟩ := batchFinish_spec (tc := tc2) hm' h2' (cs := cs) (ver' := ver')
        (by
          intro c
          by_cases hc : c ∈ gs.map Prod.fst
          · exact (b3 c hc).1
          · rw [b4 c hc]
            exact canonChild_congr (hperm c hc) (fun hn => (hvc c hc _ (pres_self.2 hn)).symm)) b2
        (Absent.frame (tc := tc1) d5 (b7 p (fun c _ => not_snoc_prefix_self))) b6
        (by
          intro c
          by_cases hc : c ∈ gs.map Prod.fst
          · exact (b3 c hc).2
          · refine ((hsubc c).frame (fun q hq => b7 q ?_)).congr' (hperm c hc) (hvc c hc)
            intro c' hc' hq'
            refine not_prefix_other hq ?_ hq'
            rintro rfl; exact hc hc') hv
      refine ⟨tc3, ?_, (d2.trans b5).trans f2, f3, fun q hq => ?_, f5⟩
      · unfold batchInsertAt
        rw [if_neg hne, htop.getNode trivial hb, canonNode_two h2]
        simp only [ok_bind, d1, g1, NodeKey.setVersion]
        exact (congrArg (fun x : Except Err (Children × TreeCache) =>
          x >>= fun (y : Children × TreeCache) => batchFinish ⟨C.V, p⟩ y.1 y.2) b1).trans f1
      · have hqp : q ≠ p := by rintro rfl; exact hq (List.prefix_refl _)
        exact ((d4 q hqp).trans (b7 q (fun c _ h => hq ((List.prefix_append _ _).trans h)))).trans (f4 q hqp)

end
end Jmt
