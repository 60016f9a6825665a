import Verif.Props.Batch
import Verif.Props.Writers
import Verif.Props.Crash
import Verif.Props.Faults
import Verif.Proofs.Overwrite
/-!
# C15: precomputed node hashes never reach the values

The batch API trusts the node hashes it is given.  Whatever they are, right or wrong, they only go into the nodes: the values
written, and so what `get` answers afterwards, are those of the value sets.
-/
namespace Jmt
variable {H : Hasher} {ops : List Op} {y : Sys}

/-- What building nodes of version `lo` or later does to the cache. -/
structure NodesOnly (lo : Version) (tc tc' : TreeCache) : Prop where
  same : Same tc tc'
  low : (∀ e ∈ tc.nodeCache, lo ≤ e.1.version) → ∀ e ∈ tc'.nodeCache, lo ≤ e.1.version

theorem NodesOnly.refl (lo : Version) (tc : TreeCache) : NodesOnly lo tc tc := ⟨Same.refl _, fun h => h⟩
theorem NodesOnly.trans {lo : Version} {a b c : TreeCache} (h : NodesOnly lo a b) (h' : NodesOnly lo b c) : NodesOnly lo a c :=
  ⟨h.same.trans h'.same, fun x => h'.low (h.low x)⟩

theorem putNode_frame {lo : Version} {tc tc' : TreeCache} {k : NodeKey} {n : Node} (h : tc.putNode k n = .ok tc')
    (hk : lo ≤ k.version) : NodesOnly lo tc tc' := by
  unfold TreeCache.putNode at h
  split at h
  · cases h
  · cases h
    refine ⟨⟨rfl, rfl, rfl, rfl, rfl⟩, fun x e he => ?_⟩
    rcases List.mem_cons.1 he with rfl | he
    · exact hk
    · exact x e (List.mem_filter.1 he).1

theorem deleteNode_frame {lo : Version} {tc tc' : TreeCache} {k : NodeKey} {l : Bool} (h : tc.deleteNode k l = .ok tc') :
    NodesOnly lo tc tc' := by
  unfold TreeCache.deleteNode at h
  split at h
  · split at h
    · cases h
    · cases h; exact ⟨⟨rfl, rfl, rfl, rfl, rfl⟩, fun x => x⟩
  · split at h
    · cases h
    · cases h; exact ⟨⟨rfl, rfl, rfl, rfl, rfl⟩, fun x e he => x e (List.mem_filter.1 he).1⟩

theorem genChild_version {k ck : NodeKey} {v : Version} {c : Nibble} (h : k.genChild v c = .ok ck) : ck.version = v := by
  unfold NodeKey.genChild at h
  split at h
  · cases h; rfl
  · cases h

/-- A step that builds a child touches only nodes. -/
def ChildFrame (lo : Version) (child : Nibble → List Kv → TreeCache → Except Err (NodeKey × Node × TreeCache)) : Prop :=
  ∀ c g tc nk n tc', child c g tc = .ok (nk, n, tc') → NodesOnly lo tc tc'

theorem batchLoop_frame {cache : HashCache} {V : Version} {child} {lo : Version} (hc : ChildFrame lo child) :
    ∀ {gs cs cs'} {tc tc' : TreeCache}, batchLoop H cache V child gs cs tc = .ok (cs', tc') → NodesOnly lo tc tc' := by
  intro gs
  induction gs with
  | nil => intro cs cs' tc tc' h; cases h; exact NodesOnly.refl _ _
  | cons g gs ih =>
    intro cs cs' tc tc' h
    unfold batchLoop at h
    obtain ⟨⟨nk, n, tc1⟩, h1, h⟩ := bind_ok_inv h
    obtain ⟨d, -, h⟩ := bind_ok_inv h
    obtain ⟨t, -, h⟩ := bind_ok_inv h
    exact (hc _ _ _ _ _ _ h1).trans (ih h)

theorem batchFinish_frame {lo : Version} {nk : NodeKey} {cs} {tc : TreeCache} {r} (h : batchFinish nk cs tc = .ok r)
    (hk : lo ≤ nk.version) : NodesOnly lo tc r.2.2 ∧ lo ≤ r.1.version := by
  unfold batchFinish at h
  obtain ⟨n, -, h⟩ := bind_ok_inv h
  obtain ⟨tc1, h1, h⟩ := bind_ok_inv h
  cases h; exact ⟨putNode_frame h1 hk, hk⟩

theorem batchLeaf_frame {lo : Version} {nk : NodeKey} {kv} {tc : TreeCache} {r} (h : batchLeaf nk kv tc = .ok r)
    (hk : lo ≤ nk.version) : NodesOnly lo tc r.2.2 ∧ lo ≤ r.1.version := by
  unfold batchLeaf at h
  obtain ⟨tc1, h1, h⟩ := bind_ok_inv h
  cases h; exact ⟨putNode_frame h1 hk, hk⟩

theorem batchCreate_frame {lo : Version} {cache : HashCache} {V : Version} (hV : lo ≤ V) : ∀ {f : Nat} {nk kvs d} {tc : TreeCache} {r},
    batchCreateSubtree H cache V f nk kvs d tc = .ok r → lo ≤ nk.version → NodesOnly lo tc r.2.2 ∧ lo ≤ r.1.version := by
  intro f
  induction f with
  | zero =>
    intro nk kvs d tc r h hk
    unfold batchCreateSubtree at h
    split at h
    · exact batchLeaf_frame h hk
    · cases h
    · next h0 _ => cases h0
  | succ f ih =>
    intro nk kvs d tc r h hk
    unfold batchCreateSubtree at h
    split at h
    · exact batchLeaf_frame h hk
    · next h0 _ => cases h0
    · next h0 _ =>
      cases h0
      obtain ⟨gs, -, h⟩ := bind_ok_inv h
      obtain ⟨⟨cs, tc1⟩, h1, h⟩ := bind_ok_inv h
      have hf := batchFinish_frame (lo := lo) h hk
      refine ⟨(batchLoop_frame (fun c g tc nk' n tc' hc => ?_) h1).trans hf.1, hf.2⟩
      obtain ⟨ck, hck, hc⟩ := bind_ok_inv hc
      exact (ih hc (by rw [genChild_version hck]; exact hV)).1

theorem batchIsolate_frame {lo V : Version} (hV : lo ≤ V) {nk l b iso cs} {tc : TreeCache} {r} (h : batchIsolate H V nk l b iso cs tc = .ok r) :
    NodesOnly lo tc r.2 := by
  unfold batchIsolate at h
  split at h
  · obtain ⟨lk, hlk, h⟩ := bind_ok_inv h
    obtain ⟨tc1, h1, h⟩ := bind_ok_inv h
    cases h; exact putNode_frame h1 (by rw [genChild_version hlk]; exact hV)
  · cases h; exact NodesOnly.refl _ _

theorem batchWithLeaf_frame {lo : Version} {cache : HashCache} {V : Version} (hV : lo ≤ V) {l : LeafNode} : ∀ {f : Nat} {nk kvs d} {tc : TreeCache} {r},
    batchWithLeaf H cache V l f nk kvs d tc = .ok r → lo ≤ nk.version → NodesOnly lo tc r.2.2 ∧ lo ≤ r.1.version := by
  intro f
  induction f with
  | zero =>
    intro nk kvs d tc r h hk
    unfold batchWithLeaf at h
    split at h
    · exact batchLeaf_frame h hk
    · cases h
  | succ f ih =>
    intro nk kvs d tc r h hk
    unfold batchWithLeaf at h
    split at h
    · exact batchLeaf_frame h hk
    · simp only at h
      obtain ⟨b, -, h⟩ := bind_ok_inv h
      obtain ⟨gs, -, h⟩ := bind_ok_inv h
      obtain ⟨⟨cs, tc1⟩, h1, h⟩ := bind_ok_inv h
      obtain ⟨⟨cs2, tc2⟩, h2, h⟩ := bind_ok_inv h
      have hf := batchFinish_frame (lo := lo) h hk
      refine ⟨((batchLoop_frame (fun c g tc nk' n tc' hc => ?_) h1).trans (batchIsolate_frame hV h2)).trans hf.1, hf.2⟩
      obtain ⟨ck, hck, hc⟩ := bind_ok_inv hc
      have hck : lo ≤ ck.version := by rw [genChild_version hck]; exact hV
      split at hc
      · exact (ih hc hck).1
      · exact (batchCreate_frame hV hc hck).1

theorem batchInsert_frame {lo : Version} {cache : HashCache} {V : Version} (hV : lo ≤ V) : ∀ {f : Nat} {nk kvs d} {tc : TreeCache} {r},
    batchInsertAt H cache V f nk kvs d tc = .ok r → NodesOnly lo tc r.2.2 ∧ lo ≤ r.1.version := by
  intro f
  induction f with
  | zero =>
    intro nk kvs d tc r h
    unfold batchInsertAt at h
    split at h
    · cases h
    · obtain ⟨node, -, h⟩ := bind_ok_inv h
      cases node with
      | internal n =>
        obtain ⟨tc1, -, h⟩ := bind_ok_inv h
        cases h
      | leaf l =>
        obtain ⟨tc1, h1, h⟩ := bind_ok_inv h
        have hf := batchWithLeaf_frame (lo := lo) hV h hV
        exact ⟨(deleteNode_frame h1).trans hf.1, hf.2⟩
      | null =>
        simp only at h
        split at h
        · cases h
        · obtain ⟨tc1, h1, h⟩ := bind_ok_inv h
          have hf := batchCreate_frame (lo := lo) hV h hV
          refine ⟨NodesOnly.trans ?_ hf.1, hf.2⟩
          split at h1
          · exact deleteNode_frame h1
          · cases h1; exact NodesOnly.refl _ _
  | succ f ih =>
    intro nk kvs d tc r h
    unfold batchInsertAt at h
    split at h
    · cases h
    · obtain ⟨node, -, h⟩ := bind_ok_inv h
      cases node with
      | internal n =>
        obtain ⟨tc1, h1, h⟩ := bind_ok_inv h
        obtain ⟨gs, -, h⟩ := bind_ok_inv h
        obtain ⟨⟨cs, tc2⟩, h2, h⟩ := bind_ok_inv h
        have hf := batchFinish_frame (lo := lo) h hV
        refine ⟨((deleteNode_frame h1).trans (batchLoop_frame (fun c g tc nk' n' tc' hc => ?_) h2)).trans hf.1, hf.2⟩
        split at hc
        · obtain ⟨ck, -, hc⟩ := bind_ok_inv hc
          exact (ih hc).1
        · obtain ⟨ck, hck, hc⟩ := bind_ok_inv hc
          exact (batchCreate_frame hV hc (by rw [genChild_version hck]; exact hV)).1
      | leaf l =>
        obtain ⟨tc1, h1, h⟩ := bind_ok_inv h
        have hf := batchWithLeaf_frame (lo := lo) hV h hV
        exact ⟨(deleteNode_frame h1).trans hf.1, hf.2⟩
      | null =>
        simp only at h
        split at h
        · cases h
        · obtain ⟨tc1, h1, h⟩ := bind_ok_inv h
          have hf := batchCreate_frame (lo := lo) hV h hV
          refine ⟨NodesOnly.trans ?_ hf.1, hf.2⟩
          split at h1
          · exact deleteNode_frame h1
          · cases h1; exact NodesOnly.refl _ _

theorem mem_extend {α β : Type} [DecidableEq α] {kvs : List (α × β)} : ∀ {m : AMap α β} {e}, e ∈ AMap.extend m kvs → e ∈ m ∨ e ∈ kvs := by
  induction kvs with
  | nil => intro m e h; exact .inl h
  | cons a kvs ih =>
    intro m e h
    rcases ih (m := m.insert a.1 a.2) h with h | h
    · rcases List.mem_cons.1 h with rfl | h
      · exact .inr List.mem_cons_self
      · exact .inl (List.mem_filter.1 h).1
    · exact .inr (List.mem_cons_of_mem _ h)

theorem get?_extend_other {α β : Type} [DecidableEq α] {k : α} {kvs : List (α × β)} : ∀ {m : AMap α β}, (∀ e ∈ kvs, e.1 ≠ k) →
    (AMap.extend m kvs).get? k = m.get? k := by
  induction kvs with
  | nil => intro m _; rfl
  | cons a kvs ih =>
    intro m h
    show (AMap.extend (m.insert a.1 a.2) kvs).get? k = _
    rw [ih (fun e he => h e (List.mem_cons_of_mem _ he)), AMap.get?_insert, if_neg (h a List.mem_cons_self)]

/-- All nodes of the cache and of the versions frozen so far are of version `lo` or later. -/
structure From (lo : Version) (tc : TreeCache) : Prop where
  cache : ∀ e ∈ tc.nodeCache, lo ≤ e.1.version
  frozen : ∀ e ∈ tc.frozen.nodeBatch.nodes, lo ≤ e.1.version
  next : lo ≤ tc.nextVersion

/-- Freezing moves the values of the version into the frozen ones. -/
theorem freeze_values {lo : Version} {tc tc' : TreeCache} (h : tc.freeze H = .ok tc') :
    tc'.valueCache = [] ∧ tc'.frozen.nodeBatch.values = tc.frozen.nodeBatch.values.extend tc.valueCache ∧
      (lo ≤ tc.rootNodeKey.version → From lo tc → From lo tc') := by
  unfold TreeCache.freeze at h
  obtain ⟨⟨n, tc1⟩, h1, h⟩ := bind_ok_inv h
  obtain ⟨d, -, h⟩ := bind_ok_inv h
  obtain ⟨tc2, h2, h⟩ := bind_ok_inv h
  have s1 : Same tc tc1 ∧ (lo ≤ tc.rootNodeKey.version → NodesOnly lo tc tc1) := by
    unfold TreeCache.freezeRoot at h1
    obtain ⟨o, -, h1⟩ := bind_ok_inv h1
    cases o with
    | some n => cases h1; exact ⟨Same.refl _, fun _ => NodesOnly.refl _ _⟩
    | none =>
      obtain ⟨tc3, h3, h1⟩ := bind_ok_inv h1
      cases h1; exact ⟨(putNode_frame (Nat.zero_le _) (h := h3)).same, fun hk => putNode_frame h3 hk⟩
  have s2 : tc2.valueCache = tc1.valueCache ∧ tc2.frozen.nodeBatch = tc1.frozen.nodeBatch ∧ tc2.nextVersion = tc1.nextVersion ∧
      (lo ≤ tc1.nextVersion → (∀ e ∈ tc1.nodeCache, lo ≤ e.1.version) → ∀ e ∈ tc2.nodeCache, lo ≤ e.1.version) := by
    unfold TreeCache.freezeCopy at h2
    split at h2
    · obtain ⟨n, -, h2⟩ := bind_ok_inv h2
      have := putNode_frame (Nat.zero_le _) (h := h2)
      exact ⟨this.same.vals, by rw [this.same.frozen], this.same.next, fun hn => (putNode_frame (lo := lo) h2 hn).low⟩
    · cases h2; exact ⟨rfl, rfl, rfl, fun _ x => x⟩
  unfold TreeCache.freezeDrain at h
  split at h
  · cases h
    refine ⟨rfl, ?_, fun hk hf => ⟨fun e he => (nomatch he), fun e he => ?_, ?_⟩⟩
    · show AMap.extend _ _ = _
      rw [s2.1, s2.2.1, s1.1.vals, s1.1.frozen]
    · rcases mem_extend he with he | he
      · rw [s2.2.1, s1.1.frozen] at he
        exact hf.frozen e he
      · exact s2.2.2.2 (by rw [s1.1.next]; exact hf.next) ((s1.2 hk).low hf.cache) e he
    · show lo ≤ tc2.nextVersion + 1
      have := hf.next
      rw [s2.2.2.1, s1.1.next]; omega
  · cases h

theorem batchSet_frame {set : List (KeyHash × Value)} {c : HashCache} {V : Version} {t t' : TreeCache}
    (h : batchSet H V set c t = .ok t') : t'.valueCache = [] ∧
      t'.frozen.nodeBatch.values = t.frozen.nodeBatch.values.extend (valAll V t.valueCache (someSet (dedupSorted set))) ∧
      ∀ lo, lo ≤ V → From lo t → From lo t' := by
  unfold batchSet at h
  split at h
  · cases h
  · simp only [putValues_spec] at h
    obtain ⟨⟨nk, n, tc1⟩, h1, h⟩ := bind_ok_inv h
    have s := (batchInsert_frame (lo := 0) (Nat.zero_le _) h1).1.same
    obtain ⟨a, b, -⟩ := freeze_values (lo := 0) h
    refine ⟨a, b.trans ?_, fun lo hV hf => ?_⟩
    · show AMap.extend tc1.frozen.nodeBatch.values tc1.valueCache = _
      rw [s.frozen, s.vals]
    · obtain ⟨n1, n2⟩ := batchInsert_frame hV h1
      refine (freeze_values (lo := lo) h).2.2 n2 ⟨n1.low hf.cache, ?_, ?_⟩
      · show ∀ e ∈ tc1.frozen.nodeBatch.nodes, _
        rw [s.frozen]; exact hf.frozen
      · show lo ≤ tc1.nextVersion
        rw [s.next]; exact hf.next

theorem batchSets_from : ∀ {sets : List (List (KeyHash × Value))} {c : List HashCache} {V lo : Version} {t t' : TreeCache},
    batchSets H V sets c t = .ok t' → lo ≤ V → From lo t → From lo t' := by
  intro sets
  induction sets with
  | nil =>
    intro c V lo t t' h _ hf
    cases c with
    | cons => cases h
    | nil => cases h; exact hf
  | cons set sets ih =>
    intro c V lo t t' h hV hf
    cases c with
    | nil => cases h
    | cons a c =>
      unfold batchSets at h
      obtain ⟨t1, h1, h⟩ := bind_ok_inv h
      exact ih h (by omega) ((batchSet_frame h1).2.2 lo hV hf)

theorem batchSets_values : ∀ {sets : List (List (KeyHash × Value))} {c c' : List HashCache} {V : Version}
    {t u t' u' : TreeCache}, batchSets H V sets c t = .ok t' → batchSets H V sets c' u = .ok u' →
    t.valueCache = u.valueCache → t.frozen.nodeBatch.values = u.frozen.nodeBatch.values →
    t'.frozen.nodeBatch.values = u'.frozen.nodeBatch.values := by
  intro sets
  induction sets with
  | nil =>
    intro c c' V t u t' u' h h' hv hf
    cases c with
    | cons => cases h
    | nil => cases c' with
      | cons => cases h'
      | nil => cases h; cases h'; exact hf
  | cons set sets ih =>
    intro c c' V t u t' u' h h' hv hf
    cases c with
    | nil => cases h
    | cons a c => cases c' with
      | nil => cases h'
      | cons a' c' =>
        unfold batchSets at h h'
        obtain ⟨t1, h1, h⟩ := bind_ok_inv h
        obtain ⟨u1, h1', h'⟩ := bind_ok_inv h'
        obtain ⟨x1, x2, -⟩ := batchSet_frame h1
        obtain ⟨y1, y2, -⟩ := batchSet_frame h1'
        exact ih h h' (x1.trans y1.symm) (by rw [x2, y2, hf, hv])

/-- C15: the values in the update batch do not depend on the node hashes given, right or wrong, nor on the store. -/
theorem C15_any_hashes_same_values {R : Reader} {sets : List (List (KeyHash × Value))} {c c' : Option (List (List Nibble → Option Digest))}
    {first : Version} {hs hs' : List Digest} {b b' : TreeUpdateBatch}
    (h : batchPutValueSets H R sets c first = .ok (hs, b)) (h' : batchPutValueSets H R sets c' first = .ok (hs', b')) :
    b.nodeBatch.values = b'.nodeBatch.values := by
  unfold batchPutValueSets at h h'
  obtain ⟨tc, h0, h⟩ := bind_ok_inv h
  obtain ⟨tc', h0', h'⟩ := bind_ok_inv h'
  rw [h0] at h0'; cases h0'
  obtain ⟨t, h1, h⟩ := bind_ok_inv h
  obtain ⟨t', h1', h'⟩ := bind_ok_inv h'
  cases h; cases h'
  exact batchSets_values h1 h1' rfl rfl

/-- C15: after a commit through the batch API that succeeds with some node hashes, right or wrong, `get` answers as the map says,
at every version. -/
theorem C15_any_hashes_get (hr : Reached H ops y) {sets : List (List (KeyHash × Value))} {c : Option (List (List Nibble → Option Digest))}
    (hb : (setsOf ops).length + sets.length < 2 ^ 64) {hs : List Digest} {s' : Store}
    (h : y.store.commitBatch H sets c y.next = .ok (hs, s')) (k : KeyHash) (v : Version) :
    get s'.reader k v = .ok (mapAt (ops ++ [.batch sets]) v k) := by
  unfold Store.commitBatch at h
  obtain ⟨⟨hs1, b⟩, h1, h⟩ := bind_ok_inv h
  obtain ⟨s1, h2, h⟩ := bind_ok_inv h
  cases h
  have hne := batch_nonempty h1
  obtain ⟨hn, hi⟩ := hr.inv (by omega)
  obtain ⟨hs0, b0, s0, g1, g2, g3⟩ := hi.batch sets none hne (cachesFor_none _ _) (by unfold preGenesisVersion u64Size; omega)
  rw [hn] at h1
  have hv := C15_any_hashes_same_values h1 g1
  obtain ⟨-, w1, -⟩ := write_inv h2
  obtain ⟨-, w0, -⟩ := write_inv g2
  rw [hv, w0] at w1
  have hvals : s0.values = s'.values := Except.ok.inj w1
  have hw := g3.inv.vals
  rw [hvals] at hw
  show Except.ok _ = _
  rw [hw.get]
  unfold mapAt
  rw [setsOf_append, show setsOf [Op.batch sets] = sets.map someSet by simp [setsOf]]

/-- C15: nor do the node hashes given, right or wrong, change what is read at older versions, proofs and root hashes included. -/
theorem C15_any_hashes_keep_older (hr : Reached H ops y) {sets : List (List (KeyHash × Value))}
    {c : Option (List (List Nibble → Option Digest))} (hb : (setsOf ops).length + sets.length < 2 ^ 64) {hs : List Digest} {s' : Store}
    (h : y.store.commitBatch H sets c y.next = .ok (hs, s')) {v : Version} (hv : Readable ops v) :
    SameQueries H s'.reader y.store.reader v v := by
  have hb0 : (setsOf ops).length < 2 ^ 64 := by omega
  obtain ⟨hn, -⟩ := hr.inv hb0
  have hlt : v < y.next := by rw [hn]; exact hv.2
  have hget := fun k w => C15_any_hashes_get hr hb h k w
  unfold Store.commitBatch at h
  obtain ⟨⟨hs1, b⟩, h1, h⟩ := bind_ok_inv h
  obtain ⟨s1, h2, h⟩ := bind_ok_inv h
  cases h
  obtain ⟨w1, -⟩ := write_inv h2
  have hlow : ∀ e ∈ b.nodeBatch.nodes, y.next ≤ e.1.version := by
    unfold batchPutValueSets at h1
    obtain ⟨tc, h3, h1⟩ := bind_ok_inv h1
    obtain ⟨tc', h4, h1⟩ := bind_ok_inv h1
    cases h1
    refine (batchSets_from h4 (Nat.le_refl _) ?_).frozen
    unfold TreeCache.new at h3
    split at h3
    · next h0 =>
      obtain ⟨o, -, h3⟩ := bind_ok_inv h3
      rw [h0]
      cases o <;> cases h3 <;> exact ⟨fun e _ => Nat.zero_le _, fun e _ => Nat.zero_le _, Nat.zero_le _⟩
    · cases h3
      exact ⟨fun e he => (nomatch he), fun e he => (nomatch he), Nat.le_refl _⟩
  refine (readAt_older hr hb0 hv (fun k hk n hg => ?_) (fun w k hw => ?_)).sameQueries (hr.readAt hb0 hv)
  · have : s'.nodes.get? k = y.store.nodes.get? k := by
      rw [w1]
      refine get?_extend_other fun e he hc => ?_
      have := hlow e he
      rw [hc] at this; omega
    show Except.ok (s'.nodes.get? k) = _
    rw [this]; exact hg
  · have h1 : Except.ok _ = Except.ok _ := hget k w
    have h2 : Except.ok _ = Except.ok _ := C01_get_is_versioned_map hr hb0 k w
    show Except.ok _ = Except.ok _
    rw [h1, h2]
    unfold mapAt
    rw [setsOf_append]
    unfold Spec.stateAfter
    rw [List.take_append_of_le_length (by omega)]

namespace Sample

/-- A commit with a wrong hash on a store with one leaf: it succeeds, the root is not that of the map, and yet `get` is right. -/
theorem _root_.Jmt.C15_wrong_hash_keeps_values : ∃ y hs s', Reached T [.commit [[(key 0x10, some [1])]]] y ∧
    y.store.commitBatch T [[(key 0x80, [2])]] (some [fun _ => some placeholder]) y.next = .ok (hs, s') ∧
    hs ≠ [Spec.root T [(key 0x10, T.hash [1]), (key 0x80, T.hash [2])]] ∧
    get s'.reader (key 0x80) 1 = .ok (some [2]) ∧ get s'.reader (key 0x10) 1 = .ok (some [1]) ∧
    SameQueries T s'.reader y.store.reader 0 0 := by
  have hk : okAnd (Sys.run T [.commit [[(key 0x10, some [1])]]] ⟨Store.new false, 0⟩) (fun y =>
      okAnd (y.store.commitBatch T [[(key 0x80, [2])]] (some [fun _ => some placeholder]) y.next)
        (fun r => decide (r.1 ≠ [Spec.root T [(key 0x10, T.hash [1]), (key 0x80, T.hash [2])]]))) = true := by
    decide +kernel
  obtain ⟨y, hy, hk⟩ := of_okAnd hk
  obtain ⟨⟨hs, s'⟩, hc, hk⟩ := of_okAnd hk
  have hr : Reached T [.commit [[(key 0x10, some [1])]]] y := ⟨false, hy⟩
  exact ⟨y, hs, s', hr, hc, of_decide_eq_true hk, C15_any_hashes_get hr (by decide) hc _ _, C15_any_hashes_get hr (by decide) hc _ _,
    C15_any_hashes_keep_older hr (by decide) hc (v := 0) ⟨by decide, by decide⟩⟩

end Sample
end Jmt
