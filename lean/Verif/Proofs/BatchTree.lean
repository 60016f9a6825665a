import Verif.Proofs.BatchGroups
import Verif.Proofs.InsertMain
/-!
# The batch functions build canonical subtrees
-/
namespace Jmt
open Spec (Entry)

/-- A given hash cache holds the right hash of the node at `q`. -/
def CacheOk (H : Hasher) (cache : HashCache) (m : List Entry) (q : List Nibble) : Prop :=
  ∀ f, cache = some f → f q = some (sh H m (pathBits q))

section
variable {C : Ctx} {tc tc' : TreeCache} {m m' : List Entry} {ver ver' : List Nibble → Version}
  {p q : List Nibble} {kvs : List Kv} {cache : HashCache}

/-- What building the subtree at `p` does to the cache. -/
structure Built (C : Ctx) (tc tc' : TreeCache) (m' : List Entry) (ver' : List Nibble → Version)
    (p : List Nibble) : Prop where
  same : Same tc tc'
  count : CountInv C tc'
  agree : ∀ q, ¬ p <+: q → AgreeAt tc tc' q
  sub : SubInv C tc' m' ver' p

theorem getHash_ok (hm' : NodupE m') (hc : CacheOk C.H cache m' q) (v : Version) :
    getHash C.H ⟨v, q⟩ (canonNode C.H m' ver' q) cache = .ok (sh C.H m' (pathBits q)) := by
  unfold getHash
  cases cache with
  | none => exact canonNode_hash hm'
  | some f => simp only [hc f rfl]

theorem KvSorted.nodup (h : KvSorted kvs) : kvs.Nodup :=
  h.imp (fun hab he => by subst he; exact List.lt_irrefl _ hab)

theorem KvSorted.nodupE (h : KvSorted kvs) : NodupE kvs := by
  unfold NodupE
  refine List.pairwise_map.2 (h.imp (fun hab he => ?_))
  rw [he] at hab; exact List.lt_irrefl _ hab

theorem NodupE.nodup {l : List Entry} (h : NodupE l) : l.Nodup :=
  (List.pairwise_map.1 h).imp (fun hab he => hab (by rw [he]))

theorem nodup_under (h : NodupE m) (p) : (under p m).Nodup := h.nodup.filter _

theorem perm_of_mem (hm' : NodupE m') (hs : KvSorted kvs) (h : ∀ e, e ∈ under p m' ↔ e ∈ kvs) :
    (under p m').Perm kvs :=
  (List.perm_ext_iff_of_nodup (nodup_under hm' p) hs.nodup).2 h

/-- The loop over the groups. -/
theorem batchLoop_spec (hm' : NodupE m')
    {child : Nibble → List Kv → TreeCache → Except Err (NodeKey × Node × TreeCache)} {Pre : Nibble → TreeCache → Prop}
    (hframe : ∀ c tc tc', Pre c tc → (∀ q, p ++ [c] <+: q → AgreeAt tc tc' q) → Pre c tc') :
    ∀ gs : List (Nibble × List Kv), (gs.map Prod.fst).Nodup →
      (∀ c g, (c, g) ∈ gs → ∀ tc, Pre c tc → CountInv C tc → tc.base = C.B →
        ∃ tc', child c g tc = .ok (⟨C.V, p ++ [c]⟩, canonNode C.H m' ver' (p ++ [c]), tc') ∧
          Built C tc tc' m' ver' (p ++ [c])) →
      (∀ c ∈ gs.map Prod.fst, under (p ++ [c]) m' ≠ [] ∧ ver' (p ++ [c]) = C.V ∧ CacheOk C.H cache m' (p ++ [c])) →
      ∀ (cs : Children) (tc : TreeCache), cs.Wf → CountInv C tc → tc.base = C.B → (∀ c ∈ gs.map Prod.fst, Pre c tc) →
      ∃ cs' tc', batchLoop C.H cache C.V child gs cs tc = .ok (cs', tc') ∧ cs'.Wf ∧
        (∀ c ∈ gs.map Prod.fst, cs'.slots c = canonChild C.H m' ver' (p ++ [c]) ∧ SubInv C tc' m' ver' (p ++ [c])) ∧
        (∀ c, c ∉ gs.map Prod.fst → cs'.slots c = cs.slots c) ∧ Same tc tc' ∧ CountInv C tc' ∧
        (∀ q, (∀ c ∈ gs.map Prod.fst, ¬ p ++ [c] <+: q) → AgreeAt tc tc' q) := by
  intro gs
  induction gs with
  | nil =>
    intro _ _ _ cs tc hwf ci _ _
    exact ⟨cs, tc, rfl, hwf, by simp, fun _ _ => rfl, Same.refl _, ci, fun _ _ => AgreeAt.refl _ _⟩
  | cons cg gs ih =>
    obtain ⟨c, g⟩ := cg
    intro hnd hch hok cs tc hwf ci hb hpre
    simp only [List.map_cons, List.nodup_cons] at hnd
    obtain ⟨tc1, a1, a2⟩ := hch c g (by simp) tc (hpre c (by simp)) ci hb
    obtain ⟨k1, k2, k3⟩ := hok c (by simp)
    obtain ⟨t, t1, t2⟩ := canonNode_nodeType (H := C.H) (ver := ver') k1
    obtain ⟨cs', tc2, b1, b2, b3, b4, b5, b6, b7⟩ := ih hnd.2 (fun c' g' h => hch c' g' (by simp [h]))
      (fun c' h => hok c' (by simp [h])) (cs.insert c ⟨sh C.H m' (pathBits (p ++ [c])), C.V, t⟩) tc1 (hwf.insert _ _)
      a2.count (a2.same.base.trans hb) (by
        intro c' hc'
        refine hframe c' tc tc1 (hpre c' (by simp only [List.map_cons, List.mem_cons]; exact .inr hc')) (fun q hq => a2.agree q ?_)
        refine not_prefix_other hq ?_
        rintro rfl; exact hnd.1 hc')
    have hslot : cs'.slots c = canonChild C.H m' ver' (p ++ [c]) := by
      rw [b4 c hnd.1, t2, k2]
      simp [Children.insert]
    refine ⟨cs', tc2, ?_, b2, ?_, ?_, a2.same.trans b5, b6, ?_⟩
    · unfold batchLoop
      simp only [a1, ok_bind, getHash_ok hm' k3, t1]
      exact b1
    · intro c' hc'
      simp only [List.map_cons, List.mem_cons] at hc'
      rcases hc' with rfl | hc'
      · refine ⟨hslot, a2.sub.frame (fun q hq => b7 q (fun c' hc' => not_prefix_other hq ?_))⟩
        rintro rfl; exact hnd.1 hc'
      · exact b3 c' hc'
    · intro c' hc'
      simp only [List.map_cons, List.mem_cons, not_or] at hc'
      rw [b4 c' hc'.2]
      simp [Children.insert, hc'.1]
    · intro q hq
      refine (a2.agree q (hq c (by simp))).trans (b7 q (fun c' hc' => hq c' ?_))
      simp only [List.map_cons, List.mem_cons]; exact .inr hc'

/-- `InternalNode::new` and `put_node` at the end. -/
theorem batchFinish_spec (hm' : NodupE m') (h2 : 2 ≤ (under p m').length) {cs : Children}
    (hcs : CanonSlots C.H m' ver' p cs) (hwf : cs.Wf) (habs : Absent C tc p) (ci : CountInv C tc)
    (hsub : ∀ c, SubInv C tc m' ver' (p ++ [c])) (hv : ver' p = C.V) :
    ∃ tc', batchFinish ⟨C.V, p⟩ cs tc = .ok (⟨C.V, p⟩, canonNode C.H m' ver' p, tc') ∧ Same tc tc' ∧ CountInv C tc' ∧
      (∀ q, q ≠ p → AgreeAt tc tc' q) ∧ SubInv C tc' m' ver' p := by
  have hp : p.length < 64 := under_length_lt_of_two hm' h2
  obtain ⟨tc2, hp1, hp2, hp3, hp4, hp5⟩ :=
    putNode_spec (habs m' ver') ci (.internal (canonInternal C.H m' ver' p))
  refine ⟨tc2, ?_, hp2, hp3, hp4, ?_⟩
  · unfold batchFinish
    rw [new_canon hcs hp hwf h2]
    simp only [ok_bind, hp1, canonNode_two h2]
  · refine SubInv.mk2 (hp5 _ _ hv (canonNode_two h2)) h2 (fun n => (hsub n).frame (fun q hq => hp4 q ?_))
    rintro rfl; exact not_snoc_prefix_self hq

theorem batchLeaf_spec {e : Entry} (he : under p m' = [e]) (habs : ∀ q, p <+: q → Absent C tc q)
    (ci : CountInv C tc) (hv : ver' p = C.V) :
    ∃ tc', batchLeaf ⟨C.V, p⟩ e tc = .ok (⟨C.V, p⟩, canonNode C.H m' ver' p, tc') ∧ Built C tc tc' m' ver' p := by
  obtain ⟨tc2, hp1, hp2, hp3, hp4, hp5⟩ :=
    putNode_spec (habs p (List.prefix_refl _) m' ver') ci (.leaf ⟨e.1, e.2⟩)
  refine ⟨tc2, ?_, hp2, hp3, fun q hq => hp4 q ?_, ?_⟩
  · unfold batchLeaf
    simp only [ok_bind, hp1, canonNode_one he]
  · rintro rfl; exact hq (List.prefix_refl _)
  · refine SubInv.mk1 (hp5 _ _ hv (canonNode_one he)) (by rw [he]; rfl) (fun q hq hne => ?_)
    exact (habs q hq).frame (hp4 q hne)

theorem under_snoc_mem {c : Nibble} {e : Entry} : e ∈ under (p ++ [c]) m ↔ e ∈ under p m ∧ p ++ [c] <+: e.1.nibbles := by
  rw [mem_under, mem_under]
  constructor
  · rintro ⟨h1, h2⟩; exact ⟨⟨h1, (List.prefix_append _ _).trans h2⟩, h2⟩
  · rintro ⟨⟨h1, -⟩, h2⟩; exact ⟨h1, h2⟩

/-- `batch_create_subtree`. -/
theorem batchCreateSubtree_spec (hm' : NodupE m') : ∀ (fuel : Nat) (p : List Nibble) (kvs : List Kv) (tc : TreeCache),
    fuel + p.length = 64 → kvs ≠ [] → KvSorted kvs → (∀ e, e ∈ under p m' ↔ e ∈ kvs) →
    (∀ q, p <+: q → Absent C tc q) → CountInv C tc → tc.base = C.B →
    (∀ q, pres m' p q → ver' q = C.V) →
    (∀ q, q ≠ p → pres m' p q → (∃ e ∈ kvs, q <+: e.1.nibbles) → CacheOk C.H cache m' q) →
    ∃ tc', batchCreateSubtree C.H cache C.V fuel ⟨C.V, p⟩ kvs p.length tc
        = .ok (⟨C.V, p⟩, canonNode C.H m' ver' p, tc') ∧ Built C tc tc' m' ver' p := by
  intro fuel
  induction fuel with
  | zero =>
    intro p kvs tc hf hne hs hmem habs ci hb hver _
    have hperm := perm_of_mem hm' hs hmem
    have hv : ver' p = C.V := hver p (pres_self.2 (by intro h; rw [h] at hperm; exact hne (List.Perm.nil_eq hperm).symm))
    match kvs, hne, hperm with
    | [kv], _, hperm =>
      unfold batchCreateSubtree
      exact batchLeaf_spec (List.perm_singleton.1 hperm) habs ci hv
    | a :: b :: t, _, hperm =>
      have h2 : 2 ≤ (under p m').length := by rw [hperm.length_eq]; simp
      have := under_length_lt_of_two hm' h2
      omega
  | succ fuel ih =>
    intro p kvs tc hf hne hs hmem habs ci hb hver hcache
    have hperm := perm_of_mem hm' hs hmem
    have hune : under p m' ≠ [] := by intro h; rw [h] at hperm; exact hne (List.Perm.nil_eq hperm).symm
    have hv : ver' p = C.V := hver p (pres_self.2 hune)
    by_cases h1 : ∃ kv, kvs = [kv]
    · obtain ⟨kv, rfl⟩ := h1
      unfold batchCreateSubtree
      exact batchLeaf_spec (List.perm_singleton.1 hperm) habs ci hv
    · have h2 : 2 ≤ (under p m').length := by
        rw [hperm.length_eq]
        match kvs, hne, h1 with
        | [kv], _, h1 => exact absurd ⟨kv, rfl⟩ h1
        | _ :: _ :: _, _, _ => simp
      have hp := under_length_lt_of_two hm' h2
      have hpre : ∀ e ∈ kvs, p <+: e.1.nibbles := fun e he => (mem_under.1 ((hmem e).2 he)).2
      obtain ⟨gs, g1, g2, g3, g4⟩ := batchGroups_spec hp hs hpre
      have hchild : ∀ c g, (c, g) ∈ gs → ∀ e, e ∈ under (p ++ [c]) m' ↔ e ∈ g := by
        intro c g hg e
        rw [under_snoc_mem, hmem, (g4 c g hg).2.2]
      have hpc : ∀ c q, pres m' (p ++ [c]) q → pres m' p q := fun c q h => (pres_child h.1 h2).1 h
      have hgne : ∀ c g, (c, g) ∈ gs → under (p ++ [c]) m' ≠ [] := by
        intro c g hg hc
        obtain ⟨e, he⟩ := List.exists_mem_of_ne_nil g (g4 c g hg).1
        have := (hchild c g hg e).2 he
        rw [hc] at this; simp at this
      obtain ⟨cs, tc1, b1, b2, b3, b4, b5, b6, b7⟩ := batchLoop_spec (C := C) (m' := m') (ver' := ver') (p := p) (cache := cache) hm'
        (child := fun c g tc => do
          let ck ← (⟨C.V, p⟩ : NodeKey).genChild C.V c
          batchCreateSubtree C.H cache C.V fuel ck g (p.length + 1) tc)
        (Pre := fun c tc => ∀ q, p ++ [c] <+: q → Absent C tc q)
        (fun c tc tc' h1 h2 q hq => (h1 q hq).frame (h2 q hq)) gs g2
        (by
          intro c g hg tc hpre ci hb
          have := ih (p ++ [c]) g tc (by simp; omega) (g4 c g hg).1 (g4 c g hg).2.1 (hchild c g hg) hpre ci hb
            (fun q hq => hver q (hpc c q hq))
            (fun q hne hq ⟨e, he1, he2⟩ => hcache q (by rintro rfl; exact not_snoc_prefix_self hq.1) (hpc c q hq)
              ⟨e, ((g4 c g hg).2.2 e).1 he1 |>.1, he2⟩)
          simp only [List.length_append, List.length_singleton] at this
          simp only [genChild_ok hp, ok_bind]
          exact this)
        (by
          intro c hc
          obtain ⟨⟨c', g⟩, hg, rfl⟩ := List.mem_map.1 hc
          have hn := hgne c' g hg
          refine ⟨hn, hver _ (hpc c' _ (pres_self.2 hn)), hcache _ snoc_ne (hpc c' _ (pres_self.2 hn)) ?_⟩
          obtain ⟨e, he⟩ := List.exists_mem_of_ne_nil g (g4 c' g hg).1
          exact ⟨e, (((g4 c' g hg).2.2 e).1 he)⟩)
        Children.empty tc Children.Wf.empty ci hb (fun c _ q hq => habs q ((List.prefix_append _ _).trans hq))
      have hnot : ∀ c, c ∉ gs.map Prod.fst → under (p ++ [c]) m' = [] := by
        intro c hc
        rw [List.eq_nil_iff_forall_not_mem]
        intro e he
        rw [under_snoc_mem, hmem] at he
        obtain ⟨c', h1, h2⟩ := g3 e he.1
        by_cases hcc : c = c'
        · subst hcc; exact hc h2
        · exact not_prefix_other h1 hcc he.2
      have hag : ∀ q, (∀ c, ¬ p ++ [c] <+: q) → AgreeAt tc tc1 q := fun q hq => b7 q (fun c _ => hq c)
      obtain ⟨tc2, f1, f2, f3, f4, f5⟩ := batchFinish_spec (tc := tc1) hm' h2 (cs := cs) (ver' := ver')
        (by
          intro c
          by_cases hc : c ∈ gs.map Prod.fst
          · exact (b3 c hc).1
          · rw [b4 c hc, canonChild_nil (hnot c hc)]; rfl) b2
        ((habs p (List.prefix_refl _)).frame (hag p (fun c => not_snoc_prefix_self))) b6
        (by
          intro c
          by_cases hc : c ∈ gs.map Prod.fst
          · exact (b3 c hc).2
          · refine SubInv.mk0 (hnot c hc) (fun q hq => (habs q ((List.prefix_append _ _).trans hq)).frame (b7 q ?_))
            intro c' hc' hq'
            refine not_prefix_other hq ?_ hq'
            rintro rfl; exact hc hc') hv
      refine ⟨tc2, ?_, b5.trans f2, f3, fun q hq => ?_, f5⟩
      · unfold batchCreateSubtree
        split
        · next h => exact absurd ⟨_, rfl⟩ h1
        · next heq h => exact absurd heq (by omega)
        · next heq h =>
          cases heq
          simp only [g1, ok_bind, b1]
          exact f1
      · exact (b7 q (fun c _ hc => hq ((List.prefix_append _ _).trans hc))).trans
          (f4 q (by rintro rfl; exact hq (List.prefix_refl _)))

end
end Jmt
