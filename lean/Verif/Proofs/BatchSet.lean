import Verif.Proofs.BatchInsert
import Verif.Proofs.Run
import Verif.Spec.History
/-!
# One value set of `batch_put_value_sets`, and all of them
-/
namespace Jmt
open Spec (Entry)

section
variable {F : Prop} {H : Hasher}

theorem sortedInsert_mem (k : KeyHash) (v : Value) : ∀ (l : List (KeyHash × Value)),
    l.Pairwise (fun a b => a.1.val < b.1.val) →
    (sortedInsert k v l).Pairwise (fun a b => a.1.val < b.1.val) ∧
    ∀ e, e ∈ sortedInsert k v l ↔ e = (k, v) ∨ (e ∈ l ∧ e.1 ≠ k) := by
  intro l
  induction l with
  | nil => intro _; simp [sortedInsert]
  | cons a l ih =>
    obtain ⟨k', v'⟩ := a
    intro hs
    rw [List.pairwise_cons] at hs
    obtain ⟨i1, i2⟩ := ih hs.2
    unfold sortedInsert
    by_cases hk : k = k'
    · subst hk
      rw [if_pos rfl]
      refine ⟨List.pairwise_cons.2 ⟨hs.1, hs.2⟩, fun e => ?_⟩
      simp only [List.mem_cons]
      have hne : ∀ e ∈ l, e.1 ≠ k := by
        intro e he h
        have := hs.1 e he
        rw [h] at this; exact List.lt_irrefl _ this
      constructor
      · rintro (h | h)
        · exact .inl h
        · exact .inr ⟨.inr h, hne e h⟩
      · rintro (h | ⟨h | h, h'⟩)
        · exact .inl h
        · exact absurd (by rw [h]) h'
        · exact .inr h
    · rw [if_neg hk]
      by_cases hlt : k.val < k'.val
      · rw [if_pos hlt]
        have hall : ∀ e ∈ (k', v') :: l, k.val < e.1.val := by
          intro e he
          rcases List.mem_cons.1 he with rfl | he
          · exact hlt
          · exact List.lt_trans hlt (hs.1 e he)
        refine ⟨List.pairwise_cons.2 ⟨hall, List.pairwise_cons.2 hs⟩, fun e => ?_⟩
        rw [List.mem_cons]
        constructor
        · rintro (h | h)
          · exact .inl h
          · refine .inr ⟨h, fun he => ?_⟩
            have := hall e h
            rw [he] at this; exact List.lt_irrefl _ this
        · rintro (h | ⟨h, -⟩)
          · exact .inl h
          · exact .inr h
      · rw [if_neg hlt]
        have hgt : k'.val < k.val := by
          rcases Std.lt_trichotomy k.val k'.val with h | h | h
          · exact absurd h hlt
          · exact absurd (Subtype.ext h) hk
          · exact h
        refine ⟨List.pairwise_cons.2 ⟨fun e he => ?_, i1⟩, fun e => ?_⟩
        · rcases (i2 e).1 he with rfl | ⟨h, -⟩
          · exact hgt
          · exact hs.1 e h
        · rw [List.mem_cons, i2, List.mem_cons]
          constructor
          · rintro (h | h | h)
            · subst h; exact .inr ⟨.inl rfl, fun h => hk h.symm⟩
            · exact .inl h
            · exact .inr ⟨.inr h.1, h.2⟩
          · rintro (h | ⟨h | h, h'⟩)
            · exact .inr (.inl h)
            · exact .inl h
            · exact .inr (.inr ⟨h, h'⟩)

theorem dedupSorted_spec (set : List (KeyHash × Value)) :
    (dedupSorted set).Pairwise (fun a b => a.1.val < b.1.val) ∧
    ∀ k v, (k, v) ∈ dedupSorted set ↔ lastWrite (someSet set) k = some (some v) := by
  have : ∀ (set acc : List (KeyHash × Value)), acc.Pairwise (fun a b => a.1.val < b.1.val) →
      (set.foldl (fun acc kv => sortedInsert kv.1 kv.2 acc) acc).Pairwise (fun a b => a.1.val < b.1.val) ∧
      ∀ k v, (k, v) ∈ set.foldl (fun acc kv => sortedInsert kv.1 kv.2 acc) acc ↔
        lastWrite (someSet set) k = some (some v) ∨ (lastWrite (someSet set) k = none ∧ (k, v) ∈ acc) := by
    intro set
    induction set with
    | nil => intro acc hs; exact ⟨hs, fun k v => by simp [someSet, lastWrite]⟩
    | cons a set ih =>
      intro acc hs
      obtain ⟨s1, s2⟩ := sortedInsert_mem a.1 a.2 acc hs
      obtain ⟨i1, i2⟩ := ih _ s1
      refine ⟨i1, fun k v => ?_⟩
      simp only [List.foldl_cons]
      rw [i2, s2]
      show _ ↔ lastWrite ((a.1, some a.2) :: someSet set) k = _ ∨ (lastWrite ((a.1, some a.2) :: someSet set) k = _ ∧ _)
      rw [lastWrite_cons]
      cases lastWrite (someSet set) k with
      | some x => simp
      | none =>
        obtain ⟨k1, v1⟩ := a
        by_cases hk : k1 = k
        · subst hk
          simp [eq_comm]
        · have hk' : ¬ k = k1 := fun h => hk h.symm
          simp [hk, hk']
  obtain ⟨h1, h2⟩ := this set [] List.Pairwise.nil
  exact ⟨h1, fun k v => by rw [dedupSorted, h2]; simp⟩

theorem mem_updAll {ws : ValueSet} : ∀ {m : List Entry} {e : Entry}, e ∈ updAll H m ws ↔
    (∃ v, lastWrite ws e.1 = some (some v) ∧ e.2 = H.hash v) ∨ (lastWrite ws e.1 = none ∧ e ∈ m) := by
  induction ws with
  | nil => intro m e; simp [updAll, lastWrite]
  | cons w ws ih =>
    intro m e
    show e ∈ updAll H (upd m w.1 (w.2.map H.hash)) ws ↔ _
    rw [ih, lastWrite_cons, mem_upd]
    obtain ⟨k, x⟩ := w
    cases lastWrite ws e.1 with
    | some y => simp
    | none =>
      by_cases hk : k = e.1
      · subst hk
        cases x <;> simp [eq_comm]
      · have hk' : ¬ e.1 = k := fun h => hk h.symm
        simp [hk, hk']

theorem lastWrite_someSet {set : List (KeyHash × Value)} {k : KeyHash} {x : Option Value}
    (h : lastWrite (someSet set) k = some x) : ∃ v, x = some v := by
  induction set with
  | nil => simp [someSet, lastWrite] at h
  | cons a set ih =>
    change lastWrite ((a.1, some a.2) :: someSet set) k = some x at h
    rw [lastWrite_cons] at h
    cases hl : lastWrite (someSet set) k with
    | some y => rw [hl] at h; exact ih (by rw [hl]; simpa using h)
    | none =>
      rw [hl] at h
      by_cases hk : a.1 = k
      · simp [hk] at h; exact ⟨_, h.symm⟩
      · simp [hk] at h

theorem lastWrite_isSome {ws : ValueSet} {k : KeyHash} : (lastWrite ws k).isSome ↔ k ∈ ws.map Prod.fst := by
  induction ws with
  | nil => simp [lastWrite]
  | cons w ws ih =>
    rw [lastWrite_cons, Option.isSome_or, Bool.or_eq_true, ih]
    simp only [List.map_cons, List.mem_cons]
    by_cases hk : w.1 = k
    · simp [hk]
    · have : ¬ k = w.1 := fun h => hk h.symm
      simp [hk, this]

/-- The sorted hashed pairs of a set. -/
def kvsOf (H : Hasher) (set : List (KeyHash × Value)) : List Kv := (dedupSorted set).map (fun kv => (kv.1, H.hash kv.2))

theorem kvsOf_sorted (set) : KvSorted (kvsOf H set) := by
  unfold KvSorted kvsOf
  rw [List.pairwise_map]
  exact (dedupSorted_spec set).1

theorem mem_kvsOf {set : List (KeyHash × Value)} {e : Kv} :
    e ∈ kvsOf H set ↔ ∃ v, lastWrite (someSet set) e.1 = some (some v) ∧ e.2 = H.hash v := by
  unfold kvsOf
  rw [List.mem_map]
  constructor
  · rintro ⟨⟨k, v⟩, h, rfl⟩
    exact ⟨v, ((dedupSorted_spec set).2 k v).1 h, rfl⟩
  · rintro ⟨v, h1, h2⟩
    exact ⟨(e.1, v), ((dedupSorted_spec set).2 e.1 v).2 h1, by rw [← h2]⟩

theorem kvsOf_key {set : List (KeyHash × Value)} {k : KeyHash} :
    (∃ e ∈ kvsOf H set, e.1 = k) ↔ k ∈ set.map Prod.fst := by
  have : set.map Prod.fst = (someSet set).map Prod.fst := by simp [someSet, List.map_map, Function.comp_def]
  rw [this, ← lastWrite_isSome, Option.isSome_iff_exists]
  constructor
  · rintro ⟨e, he, rfl⟩
    obtain ⟨v, h, -⟩ := mem_kvsOf.1 he
    exact ⟨_, h⟩
  · rintro ⟨x, hx⟩
    obtain ⟨v, rfl⟩ := lastWrite_someSet hx
    exact ⟨(k, H.hash v), mem_kvsOf.2 ⟨v, hx, rfl⟩, rfl⟩

theorem kvsOf_ne {set : List (KeyHash × Value)} (h : set ≠ []) : kvsOf H set ≠ [] := by
  obtain ⟨a, ha⟩ := List.exists_mem_of_ne_nil set h
  obtain ⟨e, he, -⟩ := (kvsOf_key (H := H)).2 (List.mem_map.2 ⟨a, ha, rfl⟩)
  exact List.ne_nil_of_mem he

theorem mem_updAll_kvs {m : List Entry} {set : List (KeyHash × Value)} {e : Entry} :
    e ∈ updAll H m (someSet set) ↔ e ∈ kvsOf H set ∨ (e ∈ m ∧ ∀ kv ∈ kvsOf H set, kv.1 ≠ e.1) := by
  rw [mem_updAll, mem_kvsOf]
  have : (∀ kv ∈ kvsOf H set, kv.1 ≠ e.1) ↔ lastWrite (someSet set) e.1 = none := by
    constructor
    · intro h
      cases hl : lastWrite (someSet set) e.1 with
      | none => rfl
      | some x =>
        obtain ⟨v, rfl⟩ := lastWrite_someSet hl
        exact absurd rfl (h (e.1, H.hash v) (mem_kvsOf.2 ⟨v, hl, rfl⟩))
    · intro h kv hkv hk
      obtain ⟨v, h1, -⟩ := mem_kvsOf.1 hkv
      rw [hk, h] at h1; cases h1
  rw [this, And.comm (a := e ∈ m)]

/-- The value cache filled by the `put_value` loop. -/
theorem putValues_spec (V : Version) : ∀ (kvs : List (KeyHash × Value)) (tc : TreeCache),
    kvs.foldl (fun tc kv => tc.putValue V kv.1 (some kv.2)) tc =
      { tc with valueCache := valAll V tc.valueCache (someSet kvs) } := by
  intro kvs
  induction kvs with
  | nil => intro tc; rfl
  | cons a kvs ih => intro tc; rw [List.foldl_cons, ih]; rfl

theorem dedup_vals (V : Version) (set : List (KeyHash × Value)) :
    ValsOk V (someSet set) (valAll V [] (someSet (dedupSorted set))) := by
  have h := valAll_ok V (someSet (dedupSorted set))
  refine ⟨h.nodup, fun v k => ?_⟩
  rw [h.get]
  have : lastWrite (someSet (dedupSorted set)) k = lastWrite (someSet set) k := by
    have hs := (dedupSorted_spec set).1
    have hm := (dedupSorted_spec set).2
    have hl : ∀ (l : List (KeyHash × Value)), l.Pairwise (fun a b => a.1.val < b.1.val) → ∀ v,
        lastWrite (someSet l) k = some (some v) ↔ (k, v) ∈ l := by
      intro l
      induction l with
      | nil => intro _ v; simp [someSet, lastWrite]
      | cons a l ih =>
        intro hp v
        rw [List.pairwise_cons] at hp
        show lastWrite ((a.1, some a.2) :: someSet l) k = _ ↔ _
        rw [lastWrite_cons, List.mem_cons, ← ih hp.2]
        by_cases hk : a.1 = k
        · have hn : lastWrite (someSet l) k = none := by
            cases hl : lastWrite (someSet l) k with
            | none => rfl
            | some x =>
              obtain ⟨v', rfl⟩ := lastWrite_someSet hl
              have := hp.1 _ ((ih hp.2 v').1 hl)
              rw [← hk] at this
              exact absurd this (List.lt_irrefl _)
          obtain ⟨k1, v1⟩ := a
          simp only at hk
          subst hk
          rw [hn]; simp [eq_comm]
        · have : (k, v) ≠ a := by rintro rfl; exact hk rfl
          simp [hk, this]
    cases h1 : lastWrite (someSet set) k with
    | none =>
      cases h2 : lastWrite (someSet (dedupSorted set)) k with
      | none => rfl
      | some x =>
        obtain ⟨v', rfl⟩ := lastWrite_someSet h2
        rw [(hm k v').1 ((hl _ hs v').1 h2)] at h1; cases h1
    | some x =>
      obtain ⟨v', rfl⟩ := lastWrite_someSet h1
      exact (hl _ hs v').2 ((hm k v').2 h1)
  rw [this]

end

section
variable {F : Prop} {H : Hasher} {tc : TreeCache} {V : Version} {m : List Entry} {ver : List Nibble → Version}

/-- The versions of the nodes after a batch: the written paths are rewritten. -/
noncomputable def batchVer (V : Version) (m : List Entry) (ver : List Nibble → Version) (kvs : List Kv) :
    List Nibble → Version := by
  classical exact fun q => if (∃ e ∈ kvs, q <+: e.1.nibbles) ∨ ¬ pres m [] q then V else ver q

/-- A given cache of node hashes holds the hash of every node below the root on the paths of the written keys. -/
def CacheFor (H : Hasher) (cache : HashCache) (m' : List Entry) (set : List (KeyHash × Value)) : Prop :=
  ∀ q, q ≠ [] → pres m' [] q → (∃ kv ∈ set, q <+: kv.1.nibbles) → CacheOk H cache m' q

theorem cacheFor_none (m' set) : CacheFor H none m' set := by
  intro q _ _ _ f h; cases h

/-- `batch_insert_at` at the root of a ready cache. -/
theorem batchRoot_spec (st : StartW F H tc V m ver) (set : List (KeyHash × Value)) (hne : set ≠ []) (cache : HashCache)
    (hcache : CacheFor H cache (updAll H m (someSet set)) set) (vc) {nk : NodeKey}
    (hnk : nk = tc.rootNodeKey) :
    ∃ n tc1, batchInsertAt H cache V 64 nk (kvsOf H set) 0 { tc with valueCache := vc } = .ok (⟨V, []⟩, n, tc1) ∧
      GInv (tc.ctx H V m ver) (tc1.setRootNodeKey ⟨V, []⟩) (updAll H m (someSet set)) (batchVer V m ver (kvsOf H set)) ∧
      SameV { tc with valueCache := vc } tc1 := by
  have hm' := st.nodup.updAll (H := H) (someSet set)
  have hk := kvsOf_ne (H := H) hne
  have hs := kvsOf_sorted (H := H) set
  have g : GInv (tc.ctx H V m ver) { tc with valueCache := vc } m ver := st.ginv.of_eq rfl rfl rfl rfl rfl rfl
  have hne' : updAll H m (someSet set) ≠ [] := by
    obtain ⟨e, he⟩ := List.exists_mem_of_ne_nil _ hk
    exact List.ne_nil_of_mem (mem_updAll_kvs.2 (.inl he))
  have hc' : ∀ q, q ≠ [] → pres (updAll H m (someSet set)) [] q → (∃ e ∈ kvsOf H set, q <+: e.1.nibbles) →
      CacheOk H cache (updAll H m (someSet set)) q := by
    rintro q h1 h2 ⟨e, h3, h4⟩
    have := (kvsOf_key (H := H)).1 ⟨e, h3, rfl⟩
    obtain ⟨kv, h5, h6⟩ := List.mem_map.1 this
    exact hcache q h1 h2 ⟨kv, h5, by rw [h6]; exact h4⟩
  have hvT : ∀ q, (∃ e ∈ kvsOf H set, q <+: e.1.nibbles) → batchVer V m ver (kvsOf H set) q = V :=
    fun q h => if_pos (.inl h)
  have hvN : ∀ q, ¬ pres m [] q → batchVer V m ver (kvsOf H set) q = V := fun q h => if_pos (.inr h)
  have hvO : ∀ q, pres m [] q → (∀ e ∈ kvsOf H set, ¬ q <+: e.1.nibbles) → batchVer V m ver (kvsOf H set) q = ver q :=
    fun q h1 h2 => if_neg (by
      rintro (⟨e, h3, h4⟩ | h3)
      · exact h2 e h3 h4
      · exact h3 h1)
  have hv0 : batchVer V m ver (kvsOf H set) [] = V := by
    obtain ⟨e, he⟩ := List.exists_mem_of_ne_nil _ hk
    exact hvT [] ⟨e, he, nil_prefix _⟩
  -- the result, from what was built at the root
  have fin : ∀ {tc0 tc1 : TreeCache}, SameV { tc with valueCache := vc } tc0 →
      Built (tc.ctx H V m ver) tc0 tc1 (updAll H m (someSet set)) (batchVer V m ver (kvsOf H set)) [] →
      GInv (tc.ctx H V m ver) (tc1.setRootNodeKey ⟨V, []⟩) (updAll H m (someSet set)) (batchVer V m ver (kvsOf H set)) ∧
      SameV { tc with valueCache := vc } tc1 := by
    intro tc0 tc1 h0 hb
    refine ⟨⟨fun _ => ⟨hb.sub.frame (fun q _ => AgreeAt.setRoot _ _), ?_, .inl hv0⟩, fun h => absurd h hne',
      hb.count.setRoot _, ?_⟩, h0.trans hb.same.toV⟩
    · rw [hv0]; rfl
    · exact hb.same.base.trans (h0.base.trans g.base)
  by_cases hm : m = []
  · subst hm
    have hn := g.null rfl
    have hcreate : ∀ tc0, SameV { tc with valueCache := vc } tc0 → CountInv (tc.ctx H V [] ver) tc0 →
        (∀ q, Absent (tc.ctx H V [] ver) tc0 q) →
        ∃ n tc1, batchCreateSubtree H cache V 64 (NodeKey.root V) (kvsOf H set) 0 tc0 = .ok (⟨V, []⟩, n, tc1) ∧
        GInv (tc.ctx H V [] ver) (tc1.setRootNodeKey ⟨V, []⟩) (updAll H [] (someSet set)) (batchVer V [] ver (kvsOf H set)) ∧
        SameV { tc with valueCache := vc } tc1 := by
      intro tc0 h0 hc ha
      obtain ⟨tc1, b1, b2⟩ := batchCreateSubtree_spec (C := tc.ctx H V [] ver) (cache := cache)
        (ver' := batchVer V [] ver (kvsOf H set)) hm' 64 [] (kvsOf H set) tc0 rfl hk hs
        (by intro e; rw [under_root, mem_updAll_kvs]; simp) (fun q _ => ha q) hc (h0.base.trans g.base)
        (fun q _ => hvN q not_pres_of_nil) hc'
      exact ⟨_, tc1, b1, fin h0 b2⟩
    rcases hn.root with ⟨h1, h2, h3⟩ | ⟨h1, h2⟩ | ⟨h1, h2, h3, h4, h5⟩
    · obtain ⟨tc0, d1, d2, d3, d4, -, -⟩ := deleteNull_spec (x := none) g h1 h2 h3
      obtain ⟨n, tc1, c1, c2⟩ := hcreate tc0 d2 d3 d4
      refine ⟨n, tc1, ?_, c2⟩
      have h1' : tc.rootNodeKey = ⟨V, []⟩ := h1
      have hget : TreeCache.getNode { tc with valueCache := vc } ⟨V, []⟩ = .ok .null := by
        unfold TreeCache.getNode TreeCache.getNodeOption
        have : tc.nodeCache.get? ⟨V, []⟩ = some .null := h2
        simp only [this, ok_bind]
      unfold batchInsertAt
      obtain rfl : nk = ⟨V, []⟩ := hnk.trans h1'
      rw [if_neg hk, hget]
      have d1' : TreeCache.deleteNode { tc with valueCache := vc } ⟨V, []⟩ false = .ok tc0 := d1
      simp only [ok_bind, ne_eq, not_true_eq_false, ↓reduceIte, d1']
      exact c1
    · exfalso
      have h1' : tc.rootNodeKey = ⟨V, []⟩ := h1
      exact st.dropped rfl h1' (h2 V)
    · have h2' : tc.rootNodeKey = ⟨tc.rootNodeKey.version, []⟩ := h2
      have hnV : tc.rootNodeKey.version ≠ V := h1.1
      have hpos : 0 < V := by
        apply Nat.pos_of_ne_zero
        intro h0
        exact hnV (by rw [(st.zero h0).2.1, h0])
      have h3' : tc.nodeCache = [] := h3
      have hbase : tc.base ⟨tc.rootNodeKey.version, []⟩ = .ok (some .null) := by
        rcases h5 with h | h
        · exact h
        · exact absurd (by rw [h2']; exact h) (st.root hpos)
      have hget : TreeCache.getNode { tc with valueCache := vc } ⟨tc.rootNodeKey.version, []⟩ = .ok .null := by
        have hgo : tc.getNodeOption ⟨tc.rootNodeKey.version, []⟩ = .ok (some .null) := by
          unfold TreeCache.getNodeOption
          rw [h3', AMap.get?_nil]; exact hbase
        have hgo' : TreeCache.getNodeOption { tc with valueCache := vc } ⟨tc.rootNodeKey.version, []⟩
          = .ok (some .null) := hgo
        unfold TreeCache.getNode
        rw [hgo']
      have habs : ∀ q, Absent (tc.ctx H V [] ver) { tc with valueCache := vc } q := by
        intro q m1 ver1
        refine ⟨fun h => h.elim, fun w n hw => ?_, fun w => ?_⟩
        · have hw' : tc.nodeCache.get? ⟨w, q⟩ = some n := hw
          rw [h3'] at hw'; simp at hw'
        · have h4' : tc.stale = [] := h4
          show _ ∈ tc.stale ↔ _
          rw [h4']
          constructor
          · intro h; simp at h
          · rintro ⟨h, -⟩; exact absurd h not_pres_of_nil
      obtain ⟨n, tc1, c1, c2⟩ := hcreate _ (SameV.refl _) g.count habs
      refine ⟨n, tc1, ?_, c2⟩
      unfold batchInsertAt
      obtain rfl : nk = ⟨tc.rootNodeKey.version, []⟩ := hnk.trans h2'
      rw [if_neg hk, hget]
      simp only [ok_bind, ne_eq, not_true_eq_false, ↓reduceIte, hnV]
      exact c1
  · obtain ⟨t1, t2, t3⟩ := g.tree hm
    obtain ⟨tc1, b1, b2⟩ := batchInsertAt_spec (C := tc.ctx H V m ver) (cache := cache) (ver := ver)
      (ver' := batchVer V m ver (kvsOf H set)) st.nodup hm' 64 [] (kvsOf H set) { tc with valueCache := vc } rfl hk hs
      (fun e _ => nil_prefix _) (by rwa [under_root]) t1 (by intro e; rw [under_root, under_root]; exact mem_updAll_kvs)
      g.count g.base (fun q _ => hvT q) (fun q _ => hvN q) hvO hc'
    refine ⟨canonNode H (updAll H m (someSet set)) (batchVer V m ver (kvsOf H set)) [], tc1, ?_, fin (SameV.refl _) b2⟩
    have t2' : tc.rootNodeKey = ⟨ver [], []⟩ := t2
    obtain rfl : nk = ⟨ver [], []⟩ := hnk.trans t2'
    exact b1

theorem under_updAll_of_not_prefix {q : List Nibble} : ∀ {ws : ValueSet} {m : List Entry},
    (∀ k ∈ ws.map Prod.fst, ¬ q <+: k.nibbles) → under q (updAll H m ws) = under q m := by
  intro ws
  induction ws with
  | nil => intro m _; rfl
  | cons w ws ih =>
    intro m h
    simp only [List.map_cons, List.mem_cons] at h
    show under q (updAll H (upd m w.1 (w.2.map H.hash)) ws) = _
    rw [ih (fun k hk => h k (.inr hk)), under_upd_of_not_prefix (h _ (.inl rfl))]

/-- With insertions only, the nodes renewed are those on the paths of the written keys and those that are new. -/
theorem renewed_some {q : List Nibble} : ∀ {set : List (KeyHash × Value)} {m : List Entry}, NodupE m → set ≠ [] →
    (Renewed H m (someSet set) q ↔ (∃ k ∈ (someSet set).map Prod.fst, q <+: k.nibbles) ∨ ¬ pres m [] q) := by
  intro set
  induction set with
  | nil => intro m _ h; exact absurd rfl h
  | cons w set ih =>
    intro m hm _
    obtain ⟨k, v⟩ := w
    have hr : Renewed H m (someSet ((k, v) :: set)) q ↔
        Renew1 m k (some (H.hash v)) q ∨ Renewed H (upd m k (some (H.hash v))) (someSet set) q := Iff.rfl
    have hks : ∀ k', k' ∈ (someSet ((k, v) :: set)).map Prod.fst ↔ k' = k ∨ k' ∈ (someSet set).map Prod.fst := by
      intro k'
      show k' ∈ k :: (someSet set).map Prod.fst ↔ _
      exact List.mem_cons
    rw [hr]
    constructor
    · rintro (⟨-, h | h⟩ | h)
      · exact .inl ⟨k, (hks k).2 (.inl rfl), h⟩
      · exact .inr h
      · by_cases hs : set = []
        · subst hs; exact h.elim
        rcases (ih (hm.upd _ _) hs).1 h with ⟨k', h1, h2⟩ | h
        · exact .inl ⟨k', (hks k').2 (.inr h1), h2⟩
        · exact .inr (fun hp => h (pres_upd_some hm k _ hp))
    · rintro (⟨k', h1, h2⟩ | h)
      · rcases (hks k').1 h1 with rfl | h1
        · exact .inl ⟨.inl (by simp), .inl h2⟩
        · by_cases hs : set = []
          · subst hs; cases h1
          exact .inr ((ih (hm.upd _ _) hs).2 (.inl ⟨k', h1, h2⟩))
      · exact .inl ⟨.inl (by simp), .inr h⟩

theorem batchVer_fresh {set : List (KeyHash × Value)} (hm : NodupE m) (hne : set ≠ []) :
    Fresh V m ver (updAll H m (someSet set)) (batchVer V m ver (kvsOf H set)) ((someSet set).map Prod.fst)
      (∀ w ∈ someSet set, w.2 ≠ none) (Effective m (someSet set)) (Renewed H m (someSet set)) := by
  have hkey : ∀ k, k ∈ (someSet set).map Prod.fst ↔ ∃ e ∈ kvsOf H set, e.1 = k := by
    intro k
    rw [kvsOf_key]; simp [someSet, List.map_map, Function.comp_def]
  have hkeep : ∀ q, pres m [] q → (∀ k ∈ (someSet set).map Prod.fst, ¬ q <+: k.nibbles) →
      batchVer V m ver (kvsOf H set) q = ver q := by
    intro q h1 h2
    refine if_neg ?_
    rintro (⟨e, h3, h4⟩ | h3)
    · exact h2 e.1 ((hkey _).2 ⟨e, h3, rfl⟩) h4
    · exact h3 h1
  refine ⟨fun q hq => ?_, fun q hq => ?_, fun _ q h1 _ h2 => hkeep q h1 h2, fun _ => ⟨fun _ => ?_, fun h => ?_⟩, fun q hq => ?_⟩
  rotate_left
  · by_cases hd : ∃ k ∈ (someSet set).map Prod.fst, q.dropLast <+: k.nibbles
    · exact .inr hd
    · have hoff : ∀ r, (r = q ∨ r = q.dropLast) → ∀ k ∈ (someSet set).map Prod.fst, ¬ r <+: k.nibbles := by
        rintro r (rfl | rfl) k hk h
        · exact hd ⟨k, hk, (List.dropLast_prefix r).trans h⟩
        · exact hd ⟨k, hk, h⟩
      have hsame : ∀ r, (r = q ∨ r = q.dropLast) → under r (updAll H m (someSet set)) = under r m := by
        intro r hr
        exact under_updAll_of_not_prefix (hoff r hr)
      have hpre : pres m [] q := by
        obtain ⟨h1, h2, h3⟩ := hq
        rw [hsame q (.inl rfl)] at h2
        rw [hsame _ (.inr rfl)] at h3
        exact ⟨h1, h2, h3⟩
      exact .inl ⟨hpre, hkeep q hpre (hoff q (.inl rfl))⟩
  · obtain ⟨w, hw⟩ := List.exists_mem_of_ne_nil _ hne
    obtain ⟨e, h1, -⟩ := (hkey w.1).1 (List.mem_map.2 ⟨(w.1, some w.2), List.mem_map.2 ⟨w, hw, rfl⟩, rfl⟩)
    exact if_pos (.inl ⟨e, h1, List.nil_prefix⟩)
  · obtain ⟨w, hw⟩ := List.exists_mem_of_ne_nil _ hne
    exact absurd ⟨(w.1, some w.2), List.mem_map.2 ⟨w, hw, rfl⟩, .inl (by simp)⟩ h
  · rw [renewed_some hm hne]
    constructor
    · rintro (⟨k, h1, h2⟩ | h)
      · obtain ⟨e, h3, h4⟩ := (hkey k).1 h1
        exact if_pos (.inl ⟨e, h3, by rw [h4]; exact h2⟩)
      · exact if_pos (.inr h)
    · intro h
      have hp : pres m [] q := Classical.byContradiction (fun hc => h (.inr hc))
      exact ⟨hkeep q hp (fun k hk hq => h (.inl ⟨k, hk, hq⟩)), hp⟩
  by_cases h : (∃ e ∈ kvsOf H set, q <+: e.1.nibbles) ∨ ¬ pres m [] q
  · exact .inl (if_pos h)
  · refine .inr ⟨if_neg h, ?_, ?_⟩
    · exact Classical.byContradiction (fun hc => h (.inr hc))
    · intro k hk _ hqk
      have hk' : k ∈ set.map Prod.fst := by simpa [someSet, List.map_map, Function.comp_def] using hk
      obtain ⟨e, h1, h2⟩ := (kvsOf_key (H := H)).2 hk'
      exact h (.inl ⟨e, h1, by rw [h2]; exact hqk⟩)

/-- One value set of the batch API, from a ready cache to a ready cache. -/
theorem batchSet_spec (st : StartW F H tc V m ver) (set : List (KeyHash × Value)) (hne : set ≠ []) (cache : HashCache)
    (hcache : CacheFor H cache (updAll H m (someSet set)) set) :
    ∃ tc' N S ver' sl vc, batchSet H V set cache tc = .ok tc' ∧
      Delta H V tc.base m ver (updAll H m (someSet set)) ver' N S ∧
      sl = S.countP (tc.ctx H V m ver).baseIsLeaf ∧
      tc'.frozen = tc.frozen.push V N vc S sl (sh H (updAll H m (someSet set)) []) ∧
      tc'.base = over N tc.base ∧ tc'.reader = tc.reader ∧
      Fresh V m ver (updAll H m (someSet set)) ver' ((someSet set).map Prod.fst) (∀ w ∈ someSet set, w.2 ≠ none)
        (Effective m (someSet set)) (Renewed H m (someSet set)) ∧
      ValsOk V (someSet set) vc ∧
      (V + 1 < preGenesisVersion → StartW F H tc' (V + 1) (updAll H m (someSet set)) ver') := by
  obtain ⟨n, tc1, b1, b2, b3⟩ := batchRoot_spec st set hne cache hcache
    (valAll V tc.valueCache (someSet (dedupSorted set))) rfl
  obtain ⟨tc', N, S, ver', sl, c1, c2, c3, c4, c5, c6, c7, c8⟩ := freeze_step st
    (st.nodup.updAll (someSet set)) b2 b3.next b3.frozen b3.reader (batchVer_fresh st.nodup hne) (.inr (fun h => by
      obtain ⟨e, he⟩ := List.exists_mem_of_ne_nil _ (kvsOf_ne (H := H) hne)
      have := mem_updAll_kvs (m := m).2 (.inl he)
      rw [h] at this; cases this))
  refine ⟨tc', N, S, ver', sl, _, ?_, c2, c3, c4, c5, c6, c7, ?_, c8⟩
  · unfold batchSet
    rw [if_neg hne]
    simp only []
    rw [putValues_spec]
    show (batchInsertAt H cache V 64 tc.rootNodeKey (kvsOf H set) 0 _ >>= _) = _
    rw [b1, ok_bind]
    exact c1
  · show ValsOk V (someSet set) tc1.valueCache
    rw [b3.vals]
    show ValsOk V (someSet set) (valAll V tc.valueCache (someSet (dedupSorted set)))
    rw [st.vals]
    exact dedup_vals V set

/-- The caches of a batch hold the right hashes. -/
def CachesFor (H : Hasher) : List Entry → List (List (KeyHash × Value)) → List HashCache → Prop
  | _, [], [] => True
  | m, set :: sets, c :: cs => CacheFor H c (updAll H m (someSet set)) set ∧ CachesFor H (updAll H m (someSet set)) sets cs
  | _, _, _ => False

theorem cachesFor_none (sets : List (List (KeyHash × Value))) : ∀ m, CachesFor H m sets (sets.map (fun _ => none)) := by
  induction sets with
  | nil => intro m; trivial
  | cons s sets ih => intro m; exact ⟨cacheFor_none _ _, ih _⟩

theorem batchSets_spec : ∀ (sets : List (List (KeyHash × Value))) (caches : List HashCache) (tc : TreeCache) (V : Nat)
    (m : List Entry) (ver : List Nibble → Version), (sets ≠ [] → StartW F H tc V m ver) →
    (∀ s ∈ sets, s ≠ []) → CachesFor H m sets caches → V + sets.length ≤ preGenesisVersion →
    ∃ tc' infos, batchSets H V sets caches tc = .ok tc' ∧ infos.map StepInfo.ws = sets.map someSet ∧
      Run H V tc.base m ver infos ∧ tc'.frozen = pushAll H V tc.base m tc.frozen infos := by
  intro sets
  induction sets with
  | nil =>
    intro caches tc V m ver _ _ hc _
    cases caches with
    | nil => exact ⟨tc, [], rfl, rfl, .nil, rfl⟩
    | cons c cs => exact hc.elim
  | cons ws rest ih =>
    intro caches tc V m ver st hn hc hle
    cases caches with
    | nil => exact hc.elim
    | cons c cs =>
      obtain ⟨tc2, N, S, ver', sl, vc, a1, a4, a5, a6, a7, a8, a10, a11, a9⟩ :=
        batchSet_spec (st (by simp)) ws (hn ws (by simp)) c hc.1
      simp only [List.length_cons] at hle
      obtain ⟨tc3, infos, b1, b2, b3, b4⟩ := ih cs tc2 (V + 1) (updAll H m (someSet ws)) ver'
        (fun hne => a9 (by have := List.length_pos_iff.2 hne; omega)) (fun s h => hn s (by simp [h])) hc.2 (by omega)
      refine ⟨tc3, ⟨someSet ws, vc, ver', N, S⟩ :: infos, ?_, by simp [b2], ?_, ?_⟩
      · unfold batchSets
        simp only [a1, ok_bind, b1]
      · rw [a7] at b3
        exact .cons a4 b3 a10 a11
      · rw [b4, a7, a6, a5]; rfl

/-- With an empty set among the sets the batch API does not succeed. -/
theorem batchSets_nonempty : ∀ (sets : List (List (KeyHash × Value))) (caches : List HashCache) (V : Nat)
    (tc tc' : TreeCache), batchSets H V sets caches tc = .ok tc' → ∀ s ∈ sets, s ≠ [] := by
  intro sets
  induction sets with
  | nil => simp
  | cons s sets ih =>
    intro caches V tc tc' h
    cases caches with
    | nil => cases h
    | cons c cs =>
      unfold batchSets at h
      obtain ⟨tc1, h1, h2⟩ := bind_ok_inv h
      intro s' hs'
      rcases List.mem_cons.1 hs' with rfl | hs'
      · rintro rfl
        unfold batchSet at h1
        cases h1
      · exact ih cs _ _ _ h2 s' hs'

/-- The caches used by `batch_put_value_sets`. -/
def cachesOf (sets : List (List (KeyHash × Value))) (nodeHashes : Option (List (List Nibble → Option Digest))) :
    List HashCache :=
  match nodeHashes with
  | some hs => hs.map some
  | none => sets.map (fun _ => none)

theorem batchSets_ready {R : Reader} {V : Nat} {m ver} (hr : ReadyW F H R.getNodeOption V m ver)
    (sets : List (List (KeyHash × Value))) (nodeHashes) (hn : ∀ s ∈ sets, s ≠ [])
    (hc : CachesFor H m sets (cachesOf sets nodeHashes))
    (hle : V + sets.length ≤ preGenesisVersion) :
    ∃ tc tc' infos, TreeCache.new R V = .ok tc ∧ batchSets H V sets (cachesOf sets nodeHashes) tc = .ok tc' ∧
      infos.map StepInfo.ws = sets.map someSet ∧ Run H V R.getNodeOption m ver infos ∧
      tc'.frozen = pushAll H V R.getNodeOption m Frozen.empty infos := by
  have hnew : ∃ tc, TreeCache.new R V = .ok tc ∧ (sets ≠ [] → StartW F H tc V m ver) := by
    by_cases hs : sets = []
    · obtain ⟨tc, -, -, -, h, -⟩ := putSets_readyW (H := H) hr false [] (.inr trivial) (by simpa [hs] using hle)
      exact ⟨tc, h, fun h => absurd hs h⟩
    · have hpos := List.length_pos_iff.2 hs
      obtain ⟨tc, h1, h2⟩ := new_start hr (by omega)
      exact ⟨tc, h1, fun _ => h2⟩
  obtain ⟨tc, h1, h2⟩ := hnew
  obtain ⟨tc', infos, b1, b2, b3, b4⟩ := batchSets_spec (H := H) sets _ tc V m ver h2 hn hc hle
  obtain ⟨c1, c2, c3⟩ := new_base h1
  rw [c1] at b3
  rw [c1, c2] at b4
  exact ⟨tc, tc', infos, h1, b1, b2, b3, b4⟩

end
end Jmt
