import Verif.Spec.Work
import Verif.Proofs.NodeHash
import Verif.Proofs.ReadWork
/-!
# How many nodes a put writes and retires, on any reader
-/
namespace Jmt

theorem AMap.length_erase_le {α β : Type} [DecidableEq α] (m : AMap α β) (k : α) : (m.erase k).length ≤ m.length :=
  List.length_filter_le _ _

theorem AMap.length_insert_le {α β : Type} [DecidableEq α] (m : AMap α β) (k : α) (v : β) :
    (m.insert k v).length ≤ m.length + 1 := by
  show (m.erase k).length + 1 ≤ _
  have := AMap.length_erase_le m k
  omega

theorem AMap.length_extend_le {α β : Type} [DecidableEq α] (kvs : List (α × β)) : ∀ (m : AMap α β),
    (m.extend kvs).length ≤ m.length + kvs.length := by
  induction kvs with
  | nil => intro m; exact Nat.le_refl _
  | cons e kvs ih =>
    intro m
    show (AMap.extend (m.insert e.1 e.2) kvs).length ≤ _
    have h1 := ih (m.insert e.1 e.2)
    have h2 := AMap.length_insert_le m e.1 e.2
    simp only [List.length_cons]
    omega

/-- From `tc` to `tc'` at most `a` nodes have been added to the cache and at most `b` marked stale; nothing else changed. -/
structure Grow (tc tc' : TreeCache) (a b : Nat) : Prop where
  nodes : tc'.nodeCache.length ≤ tc.nodeCache.length + a
  stale : tc'.stale.length ≤ tc.stale.length + b
  frozen : tc'.frozen = tc.frozen
  values : tc'.valueCache = tc.valueCache
  root : tc'.rootNodeKey = tc.rootNodeKey

theorem Grow.refl (tc : TreeCache) : Grow tc tc 0 0 := ⟨Nat.le_refl _, Nat.le_refl _, rfl, rfl, rfl⟩

theorem Grow.trans {t1 t2 t3 : TreeCache} {a b c d : Nat} (h1 : Grow t1 t2 a b) (h2 : Grow t2 t3 c d) :
    Grow t1 t3 (a + c) (b + d) :=
  ⟨by have := h1.nodes; have := h2.nodes; omega, by have := h1.stale; have := h2.stale; omega,
    h2.frozen.trans h1.frozen, h2.values.trans h1.values, h2.root.trans h1.root⟩

theorem Grow.mono {tc tc' : TreeCache} {a b a' b' : Nat} (h : Grow tc tc' a b) (ha : a ≤ a') (hb : b ≤ b') : Grow tc tc' a' b' :=
  ⟨by have := h.nodes; omega, by have := h.stale; omega, h.frozen, h.values, h.root⟩

theorem putNode_grow {tc tc' : TreeCache} {k : NodeKey} {n : Node} (h : tc.putNode k n = .ok tc') :
    Grow tc tc' 1 0 ∧ tc'.nodeCache.get? k ≠ none := by
  unfold TreeCache.putNode at h
  split at h
  · cases h
  · cases h
    refine ⟨⟨AMap.length_insert_le _ _ _, Nat.le_refl _, rfl, rfl, rfl⟩, ?_⟩
    show (tc.nodeCache.insert k n).get? k ≠ none
    simp

theorem deleteNode_grow {tc tc' : TreeCache} {k : NodeKey} {l : Bool} (h : tc.deleteNode k l = .ok tc') :
    Grow tc tc' 0 1 ∧ (tc.nodeCache.get? k ≠ none → Grow tc tc' 0 0) ∧
    ∀ k', k' ≠ k → tc'.nodeCache.get? k' = tc.nodeCache.get? k' := by
  unfold TreeCache.deleteNode at h
  split at h
  · rename_i hk
    split at h
    · cases h
    · cases h
      exact ⟨⟨Nat.le_refl _, Nat.le_refl _, rfl, rfl, rfl⟩, fun hc => absurd hk hc, fun _ _ => rfl⟩
  · rename_i n hk
    split at h
    · cases h
    · cases h
      have hg : Grow tc { tc with
          nodeCache := tc.nodeCache.erase k
          numNewLeaves := if l then tc.numNewLeaves - 1 else tc.numNewLeaves } 0 0 :=
        ⟨AMap.length_erase_le _ _, Nat.le_refl _, rfl, rfl, rfl⟩
      refine ⟨hg.mono (Nat.le_refl _) (by omega), fun _ => hg, fun k' hk' => ?_⟩
      show (tc.nodeCache.erase k).get? k' = _
      rw [AMap.get?_erase, if_neg (fun hc => hk' hc.symm)]

theorem createLeafNode_grow {tc tc' : TreeCache} {nk nk' : NodeKey} {vis rem : List Nibble} {vh : ValueHash} {n : Node}
    (h : createLeafNode tc nk vis rem vh = .ok (nk', n, tc')) :
    Grow tc tc' 1 0 ∧ nk' = nk ∧ tc'.nodeCache.get? nk ≠ none := by
  unfold createLeafNode at h
  split at h
  · cases h
  · obtain ⟨t, ht, h⟩ := bind_ok_inv h
    cases h
    exact ⟨(putNode_grow ht).1, rfl, (putNode_grow ht).2⟩

theorem chainUp_grow {H : Hasher} {version : Version} : ∀ {c : Nat} {tc tc' : TreeCache} {nk nk' : NodeKey}
    {path : List Nibble} {node top : InternalNode}, nk = ⟨version, path⟩ → tc.nodeCache.get? nk ≠ none →
    chainUp H version c tc nk path node = .ok (nk', top, tc') →
    Grow tc tc' c 0 ∧ nk' = ⟨version, path.take (path.length - c)⟩ ∧ tc'.nodeCache.get? nk' ≠ none := by
  intro c
  induction c with
  | zero =>
    intro tc tc' nk nk' path node top hnk hin h
    cases h
    exact ⟨Grow.refl _, by rw [hnk]; simp, hin⟩
  | succ c ih =>
    intro tc tc' nk nk' path node top hnk hin h
    unfold chainUp at h
    split at h
    · cases h
    · obtain ⟨hh, -, h⟩ := bind_ok_inv h
      obtain ⟨inode, -, h⟩ := bind_ok_inv h
      obtain ⟨t, ht, h⟩ := bind_ok_inv h
      obtain ⟨g1, g2⟩ := putNode_grow ht
      obtain ⟨g3, g4, g5⟩ := ih rfl g2 h
      refine ⟨(g1.trans g3).mono (by omega) (by omega), ?_, g5⟩
      rw [g4, List.length_dropLast, List.dropLast_eq_take, List.take_take]
      congr 2
      omega

/-- What one insertion below the node at `vis`, with `n` nibbles of the key left, may have done. -/
def Worked (version : Version) (vis : List Nibble) (n : Nat) (tc tc' : TreeCache) : PutResult → Prop
  | .updated nk _ => Grow tc tc' (n + 2) (n + 2) ∧ nk = ⟨version, vis⟩ ∧ tc'.nodeCache.get? nk ≠ none
  | .removed => Grow tc tc' 0 (n + 1)
  | .notChanged => Grow tc tc' 0 1

theorem insertAtLeafNode_work {H : Hasher} {version : Version} {value : Option ValueHash} {wp : Bool} {nk : NodeKey}
    {leaf : LeafNode} {vis rem : List Nibble} {tc tc' : TreeCache} {r : PutResult} {p : Option SMProof} (hp : nk.path = vis)
    (h : insertAtLeafNode H version value wp nk leaf vis rem tc = .ok (r, p, tc')) :
    Worked version vis rem.length tc tc' r := by
  unfold insertAtLeafNode at h
  simp only [] at h
  split at h
  · cases h
  obtain ⟨c, xs', ys', hsk, hx, -, -⟩ := skipCommonPrefix_spec rem (skipCommonPrefix vis leaf.keyHash.nibbles).2.2
  rw [hsk] at h
  simp only [] at h
  have htake : rem.take c.length = c := by rw [hx]; simp
  rw [htake] at h
  cases xs' with
  | nil =>
    simp only [] at h
    split at h
    · cases h
    · obtain ⟨t, ht, h⟩ := bind_ok_inv h
      obtain ⟨g1, -, -⟩ := deleteNode_grow ht
      cases value with
      | none => cases h; exact g1.mono (Nat.le_refl _) (by omega)
      | some vh =>
        simp only [] at h
        obtain ⟨⟨nk', n', t'⟩, ht', h⟩ := bind_ok_inv h
        cases h
        obtain ⟨g2, g3, g4⟩ := createLeafNode_grow ht'
        refine ⟨(g1.trans g2).mono (by omega) (by omega), ?_, by rw [g3]; exact g4⟩
        rw [g3, ← hp]; rfl
  | cons newIdx rem'' =>
    cases value with
    | none => cases h; exact (Grow.refl _).mono (Nat.le_refl _) (by omega)
    | some vh =>
      simp only [] at h
      obtain ⟨t, ht, h⟩ := bind_ok_inv h
      obtain ⟨g1, -, -⟩ := deleteNode_grow ht
      cases ys' with
      | nil => cases h
      | cons oldIdx ys'' =>
        simp only [] at h
        split at h
        · cases h
        obtain ⟨oldKey, -, h⟩ := bind_ok_inv h
        obtain ⟨t2, ht2, h⟩ := bind_ok_inv h
        obtain ⟨newKey, -, h⟩ := bind_ok_inv h
        obtain ⟨⟨nk3, n3, t3⟩, ht3, h⟩ := bind_ok_inv h
        simp only [] at h
        obtain ⟨nh, -, h⟩ := bind_ok_inv h
        obtain ⟨inode, -, h⟩ := bind_ok_inv h
        obtain ⟨t4, ht4, h⟩ := bind_ok_inv h
        obtain ⟨⟨nk5, top, t5⟩, ht5, h⟩ := bind_ok_inv h
        simp only [] at h
        cases h
        have g2 := (putNode_grow ht2).1
        have g3 := (createLeafNode_grow ht3).1
        obtain ⟨g4, g4'⟩ := putNode_grow ht4
        obtain ⟨g5, g6, g7⟩ := chainUp_grow rfl g4' ht5
        have hl : rem.length = c.length + (rem''.length + 1) := by rw [hx]; simp
        refine ⟨((((g1.trans g2).trans g3).trans g4).trans g5).mono (by omega) (by omega), ?_, g7⟩
        rw [g6]
        congr 1
        simp

theorem worked_rebuild {version : Version} {vis : List Nibble} {H : Hasher} {wp : Bool} {nk : NodeKey} {node : InternalNode}
    {idx : Nibble} {n : Nat} {r0 r : PutResult} {p0 p : Option SMProof} {tc0 tc tc' : TreeCache} (hp : nk.path = vis)
    (hw : Worked version (vis ++ [idx]) n tc0 tc r0)
    (h : rebuildInternal H version wp nk node idx r0 p0 tc = .ok (r, p, tc')) :
    Worked version vis (n + 1) tc0 tc' r := by
  have rewrite : ∀ {cs : Children}, ((∃ c0, (idx, c0) ∈ cs.iter ∧ c0.version = version ∧
        tc.nodeCache.get? ⟨version, vis ++ [idx]⟩ ≠ none ∧ Grow tc0 tc (n + 2) (n + 2)) ∨ Grow tc0 tc 0 (n + 1)) →
      rewriteInternal version nk cs p0 tc = .ok (r, p, tc') → Worked version vis (n + 1) tc0 tc' r := by
    intro cs hcase h
    unfold rewriteInternal at h
    obtain ⟨t, ht, h⟩ := bind_ok_inv h
    obtain ⟨d1, -, d3⟩ := deleteNode_grow ht
    simp only [] at h
    have g : Grow tc0 tc (n + 2) (n + 2) := by
      rcases hcase with ⟨-, -, -, -, g⟩ | g
      · exact g
      · exact g.mono (by omega) (by omega)
    have hset : nk.setVersion version = ⟨version, vis⟩ := by rw [← hp]; rfl
    have hput : ∀ {x : Node} {pp : Option SMProof} {t0 : TreeCache}, Grow tc0 t0 (n + 2) (n + 3) →
        (t0.putNode (nk.setVersion version) x >>= fun tc => .ok (.updated (nk.setVersion version) x, pp, tc)) = .ok (r, p, tc') →
        Worked version vis (n + 1) tc0 tc' r := by
      intro x pp t0 gt h
      obtain ⟨t2, ht2, h⟩ := bind_ok_inv h
      cases h
      obtain ⟨e1, e2⟩ := putNode_grow ht2
      exact ⟨(gt.trans e1).mono (by omega) (by omega), hset, e2⟩
    match hi : cs.iter with
    | [] =>
      rw [hi] at h hcase
      cases h
      rcases hcase with ⟨c, hc, -⟩ | hg
      · cases hc
      · exact (hg.trans d1).mono (by omega) (by omega)
    | [(j, c)] =>
      rw [hi] at h hcase
      simp only [] at h
      split at h
      · obtain ⟨ck, hk, h1⟩ := bind_ok_inv h
        obtain ⟨cn, -, h2⟩ := bind_ok_inv h1
        obtain ⟨t3, ht3, h3⟩ := bind_ok_inv h2
        obtain ⟨f1, f2, -⟩ := deleteNode_grow ht3
        rcases hcase with ⟨c0, hc, v1, v2, hg⟩ | hg
        · have hc := List.mem_singleton.1 hc
          have hj : idx = j := congrArg Prod.fst hc
          have hc0 : c0 = c := congrArg Prod.snd hc
          have hck : ck = ⟨version, vis ++ [idx]⟩ := by rw [genChild_path hk, ← hc0, v1, hp, hj]
          have hne : (⟨version, vis ++ [idx]⟩ : NodeKey) ≠ nk := by
            intro hc
            have := congrArg (fun k => k.path.length) hc
            simp [hp] at this
          have hin : t.nodeCache.get? ck ≠ none := by rw [hck, d3 _ hne]; exact v2
          exact hput (((hg.trans d1).trans (f2 hin)).mono (by omega) (by omega)) h3
        · exact hput (((hg.trans d1).trans f1).mono (by omega) (by omega)) h3
      · obtain ⟨inode, -, h⟩ := bind_ok_inv h
        exact hput ((g.trans d1).mono (by omega) (by omega)) h
    | _ :: _ :: _ =>
      rw [hi] at h
      simp only [] at h
      obtain ⟨inode, -, h⟩ := bind_ok_inv h
      exact hput ((g.trans d1).mono (by omega) (by omega)) h
  cases r0 with
  | notChanged => cases h; exact hw
  | removed =>
    obtain ⟨cs, -, h⟩ := bind_ok_inv h
    exact rewrite (.inr hw) h
  | updated nk1 n1 =>
    obtain ⟨cs, hcs, h⟩ := bind_ok_inv h
    obtain ⟨w1, w2, w3⟩ := hw
    unfold updateChildren at hcs
    obtain ⟨hh, -, hcs⟩ := bind_ok_inv hcs
    obtain ⟨ty, -, hcs⟩ := bind_ok_inv hcs
    cases hcs
    refine rewrite (.inl ⟨⟨hh, version, ty⟩, mem_iter.2 ?_, rfl, by rw [← w2]; exact w3, w1⟩) h
    show (node.children.insert idx _).slots idx = _
    unfold Children.insert
    simp

theorem childLoop_path {H : Hasher} {g : NodeKey → Except Err Node} {n : InternalNode} {nk : NodeKey} {i : Nibble}
    {bm : BitVec 16 × BitVec 16} : ∀ {h : Nat} {acc : List SMNode} {ck : NodeKey} {out : List SMNode},
    InternalNode.getChildWithSiblingsLoop H g n nk i false bm h acc = .ok (some ck, out) → ck.path = nk.path ++ [i] := by
  intro h
  induction h with
  | zero => intro acc ck out hs; cases hs
  | succ h ih =>
    intro acc ck out hs
    unfold InternalNode.getChildWithSiblingsLoop at hs
    simp only [] at hs
    obtain ⟨sib, -, hs⟩ := bind_ok_inv hs
    obtain ⟨r, -, hs⟩ := bind_ok_inv hs
    split at hs
    · cases hs
    split at hs
    · rename_i hc; simp at hc
    split at hs
    · obtain ⟨⟨j, c⟩, hc, hs⟩ := bind_ok_inv hs
      simp only [] at hs
      obtain ⟨ck', hk, hs⟩ := bind_ok_inv hs
      cases hs
      rw [genChild_path hk]
      have hj : j = i := by
        unfold InternalNode.childAtIdx at hc
        split at hc
        · cases hc
        · rename_i i' hi
          split at hc
          · cases hc
          · cases hc
            unfold Nibble.ofNat? at hi
            split at hi
            · cases hi; rfl
            · cases hi
      rw [hj]
    · exact ih hs

theorem childKey_path {H : Hasher} {wp : Bool} {nk : NodeKey} {n : InternalNode} {idx : Nibble} {c : Child} {tc : TreeCache}
    {ck : NodeKey} {sibs : List SMNode} (h : childKeyAndSiblings H wp nk n idx c tc = .ok (ck, sibs)) :
    ck.path = nk.path ++ [idx] := by
  unfold childKeyAndSiblings at h
  split at h
  · obtain ⟨⟨ck?, s⟩, hs, h⟩ := bind_ok_inv h
    cases ck? with
    | none => cases h
    | some ck' =>
      cases h
      unfold InternalNode.getChildWithSiblings at hs
      obtain ⟨bm, -, hs⟩ := bind_ok_inv hs
      exact childLoop_path hs
  · obtain ⟨ck', hk, h⟩ := bind_ok_inv h
    cases h
    rw [genChild_path hk]

theorem insertAtNull_work {version : Version} {value : Option ValueHash} {wp ex : Bool} {nk : NodeKey}
    {vis rem : List Nibble} {tc tc' : TreeCache} {r : PutResult} {p : Option SMProof} (hp : nk.path = vis)
    (h : insertAtNull version value wp nk ex vis rem tc = .ok (r, p, tc')) :
    Worked version vis rem.length tc tc' r := by
  unfold insertAtNull at h
  split at h
  · cases h
  rename_i hnil
  obtain ⟨t, ht, h⟩ := bind_ok_inv h
  have g : Grow tc t 0 1 := by
    split at ht
    · exact (deleteNode_grow ht).1
    · cases ht; exact (Grow.refl _).mono (by omega) (by omega)
  cases value with
  | none => cases h; exact g
  | some vh =>
    obtain ⟨⟨nk1, n1, t1⟩, ht1, h⟩ := bind_ok_inv h
    cases h
    obtain ⟨g2, g3, g4⟩ := createLeafNode_grow ht1
    refine ⟨(g.trans g2).mono (by omega) (by omega), ?_, by rw [g3]; exact g4⟩
    rw [g3, ← hp, Classical.not_not.1 hnil]; rfl

theorem insertAt_work {H : Hasher} {version : Version} {value : Option ValueHash} {wp : Bool} :
    ∀ {rem vis : List Nibble} {nk : NodeKey} {tc tc' : TreeCache} {r : PutResult} {p : Option SMProof}, nk.path = vis →
    insertAt H version value wp rem vis nk tc = .ok (r, p, tc') → Worked version vis rem.length tc tc' r := by
  intro rem
  induction rem with
  | nil =>
    intro vis nk tc tc' r p hp h
    unfold insertAt at h
    obtain ⟨node?, -, h⟩ := bind_ok_inv h
    match node? with
    | none => exact insertAtNull_work hp h
    | some .null => exact insertAtNull_work hp h
    | some (.leaf l) => exact insertAtLeafNode_work hp h
    | some (.internal n) => cases h
  | cons idx rem ih =>
    intro vis nk tc tc' r p hp h
    unfold insertAt at h
    obtain ⟨node?, -, h⟩ := bind_ok_inv h
    match node? with
    | none => exact insertAtNull_work hp h
    | some .null => exact insertAtNull_work hp h
    | some (.leaf l) => exact insertAtLeafNode_work hp h
    | some (.internal n) =>
      have h' : insertAtInternalNode H version value wp
          (fun nk tc => insertAt H version value wp rem (vis ++ [idx]) nk tc) nk n idx vis rem tc = .ok (r, p, tc') := h
      unfold insertAtInternalNode at h'
      obtain ⟨⟨r0, p0, t0⟩, h0, h1⟩ := bind_ok_inv h'
      refine worked_rebuild hp ?_ h1
      cases hc : n.child idx with
      | some c =>
        rw [hc] at h0
        simp only [] at h0
        obtain ⟨⟨ck, sibs⟩, hk, h0⟩ := bind_ok_inv h0
        obtain ⟨⟨r1, p1, t1⟩, hr, h0⟩ := bind_ok_inv h0
        cases h0
        exact ih (by rw [childKey_path hk, hp]) hr
      | none =>
        rw [hc] at h0
        simp only [] at h0
        obtain ⟨pf, -, h0⟩ := bind_ok_inv h0
        cases value with
        | none => cases h0; exact (Grow.refl _).mono (by omega) (by omega)
        | some vh =>
          obtain ⟨ck, hk, h0⟩ := bind_ok_inv h0
          obtain ⟨⟨nk1, n1, t1⟩, ht1, h0⟩ := bind_ok_inv h0
          cases h0
          obtain ⟨g2, g3, g4⟩ := createLeafNode_grow ht1
          refine ⟨g2.mono (by omega) (by omega), ?_, by rw [g3]; exact g4⟩
          rw [g3, genChild_path hk, hp]

/-- One write: at most 66 nodes staged and 66 retired. -/
theorem put_work {H : Hasher} {key : KeyHash} {value : Option ValueHash} {version : Version} {tc tc' : TreeCache} {wp : Bool}
    {p : Option SMProof} (hroot : tc.rootNodeKey.path = []) (h : put H key value version tc wp = .ok (p, tc')) :
    tc'.nodeCache.length ≤ tc.nodeCache.length + 66 ∧ tc'.stale.length ≤ tc.stale.length + 66 ∧ tc'.frozen = tc.frozen ∧
    tc'.valueCache = tc.valueCache ∧ tc'.rootNodeKey.path = [] := by
  unfold put at h
  obtain ⟨⟨r, p1, t⟩, hi, h⟩ := bind_ok_inv h
  have hw := insertAt_work hroot hi
  have hl : key.nibbles.length = 64 := nibbles_length key
  rw [hl] at hw
  cases r with
  | updated nk n =>
    cases h
    obtain ⟨g, hk, -⟩ := hw
    exact ⟨g.nodes, g.stale, g.frozen, g.values, by rw [hk]; rfl⟩
  | notChanged =>
    cases h
    have g := hw.mono (a' := 66) (b' := 66) (by omega) (by omega)
    exact ⟨g.nodes, g.stale, g.frozen, g.values, by rw [g.root]; exact hroot⟩
  | removed =>
    obtain ⟨t1, ht1, h⟩ := bind_ok_inv h
    cases h
    obtain ⟨g, -⟩ := putNode_grow ht1
    have g0 : Grow tc t 0 65 := hw
    refine ⟨?_, ?_, g.frozen.trans g0.frozen, g.values.trans g0.values, by rw [g.root]; rfl⟩
    · have h1 := g.nodes; have h2 := g0.nodes
      change _ ≤ t.nodeCache.length + 1 at h1
      omega
    · have h1 := g.stale; have h2 := g0.stale
      change _ ≤ t.stale.length + 0 at h1
      omega

theorem putAll_work {H : Hasher} {version : Version} {wp : Bool} : ∀ {ws : ValueSet} {tc tc' : TreeCache} {ps : List SMProof},
    tc.rootNodeKey.path = [] → putAll H version wp ws tc = .ok (ps, tc') →
    tc'.nodeCache.length ≤ tc.nodeCache.length + 66 * ws.length ∧ tc'.stale.length ≤ tc.stale.length + 66 * ws.length ∧
    tc'.valueCache.length ≤ tc.valueCache.length + ws.length ∧ tc'.frozen = tc.frozen ∧ tc'.rootNodeKey.path = [] := by
  intro ws
  induction ws with
  | nil =>
    intro tc tc' ps hr h
    cases h
    exact ⟨by omega, by omega, by omega, rfl, hr⟩
  | cons w ws ih =>
    intro tc tc' ps hr h
    obtain ⟨k, x⟩ := w
    unfold putAll at h
    obtain ⟨⟨p, t⟩, hp, h⟩ := bind_ok_inv h
    obtain ⟨ps1, -, h⟩ := bind_ok_inv h
    obtain ⟨⟨ps2, t2⟩, h2, h⟩ := bind_ok_inv h
    cases h
    obtain ⟨a1, a2, a3, a4, a5⟩ := put_work (tc := tc.putValue version k x) hr hp
    obtain ⟨b1, b2, b3, b4, b5⟩ := ih a5 h2
    have hv : t.valueCache.length ≤ tc.valueCache.length + 1 := by
      rw [a4]; exact AMap.length_insert_le _ _ _
    change _ ≤ tc.nodeCache.length + 66 at a1
    change _ ≤ tc.stale.length + 66 at a2
    simp only [List.length_cons]
    exact ⟨by omega, by omega, by omega, b4.trans a3, b5⟩

/-- One write to a tree that is the staged null root. -/
theorem put_null_work {H : Hasher} {key : KeyHash} {value : Option ValueHash} {version : Version} {tc tc' : TreeCache} {wp : Bool}
    {p : Option SMProof} (hnull : tc.nodeCache.get? tc.rootNodeKey = some .null)
    (h : put H key value version tc wp = .ok (p, tc')) : tc'.nodeCache.length ≤ tc.nodeCache.length + 1 := by
  unfold put at h
  obtain ⟨⟨r, p1, t⟩, hi, h⟩ := bind_ok_inv h
  have hg : tc.getNodeOption tc.rootNodeKey = .ok (some .null) := by unfold TreeCache.getNodeOption; rw [hnull]
  have hi' : insertAtNull version value wp tc.rootNodeKey true [] key.nibbles tc = .ok (r, p1, t) := by
    unfold insertAt at hi
    rw [hg] at hi
    exact hi
  unfold insertAtNull at hi'
  split at hi'
  · cases hi'
  obtain ⟨t1, ht1, hi'⟩ := bind_ok_inv hi'
  have g : t1.nodeCache.length ≤ tc.nodeCache.length := by
    split at ht1
    · exact (deleteNode_grow ht1).1.nodes
    · cases ht1; exact Nat.le_refl _
  cases value with
  | none => cases hi'; cases h; omega
  | some vh =>
    obtain ⟨⟨nk1, n1, t2⟩, ht2, hi'⟩ := bind_ok_inv hi'
    cases hi'
    cases h
    have := (createLeafNode_grow ht2).1.nodes
    show t.nodeCache.length ≤ _
    omega

theorem freeze_work {H : Hasher} {tc tc' : TreeCache} (hr : tc.rootNodeKey.path = []) (h : tc.freeze H = .ok tc') :
    ∃ st : NodeStats, tc'.frozen.nodeBatch.nodes.length ≤ tc.frozen.nodeBatch.nodes.length + st.newNodes ∧
    tc'.frozen.nodeBatch.values.length ≤ tc.frozen.nodeBatch.values.length + tc.valueCache.length ∧
    tc'.frozen.stale.length ≤ tc.frozen.stale.length + tc.stale.length ∧
    tc'.frozen.stats = tc.frozen.stats ++ [st] ∧ st.newNodes ≤ tc.nodeCache.length + 1 ∧ st.staleNodes ≤ tc.stale.length ∧
    (tc.nodeCache.get? tc.rootNodeKey ≠ none → st.newNodes ≤ tc.nodeCache.length) ∧
    tc'.nodeCache = [] ∧ tc'.valueCache = [] ∧ tc'.stale = [] ∧ tc'.rootNodeKey.path = [] := by
  unfold TreeCache.freeze at h
  obtain ⟨⟨n, t1⟩, h1, h⟩ := bind_ok_inv h
  obtain ⟨hh, -, h⟩ := bind_ok_inv h
  simp only [] at h
  obtain ⟨t2, h2, h⟩ := bind_ok_inv h
  have g1 : Grow tc t1 1 0 ∧ (tc.nodeCache.get? tc.rootNodeKey ≠ none → t1 = tc) := by
    unfold TreeCache.freezeRoot at h1
    obtain ⟨n?, hn, h1⟩ := bind_ok_inv h1
    cases n? with
    | some n' => cases h1; exact ⟨(Grow.refl _).mono (by omega) (by omega), fun _ => rfl⟩
    | none =>
      obtain ⟨t, ht, h1⟩ := bind_ok_inv h1
      cases h1
      refine ⟨(putNode_grow ht).1, fun hc => ?_⟩
      unfold TreeCache.getNodeOption at hn
      split at hn
      · cases hn
      · rename_i hc'; exact absurd hc' hc
  obtain ⟨g1, g1n⟩ := g1
  have g2 : t2.nodeCache.length ≤ tc.nodeCache.length + 1 ∧ t2.stale = t1.stale ∧
      t2.frozen = { t1.frozen with rootHashes := t1.frozen.rootHashes ++ [hh] } ∧
      t2.valueCache = t1.valueCache ∧ t2.rootNodeKey = t1.rootNodeKey ∧
      (tc.nodeCache.get? tc.rootNodeKey ≠ none → t2.nodeCache.length ≤ tc.nodeCache.length) := by
    unfold TreeCache.freezeCopy at h2
    split at h2
    · rename_i hc
      obtain ⟨nd, -, h2⟩ := bind_ok_inv h2
      have hnil : t1.nodeCache = [] := hc.2.1
      unfold TreeCache.putNode at h2
      split at h2
      · cases h2
      · cases h2
        refine ⟨?_, rfl, rfl, rfl, rfl, fun hin => ?_⟩
        · have := AMap.length_insert_le t1.nodeCache (t1.rootNodeKey.setVersion t1.nextVersion) nd
          rw [hnil] at this
          show (AMap.insert t1.nodeCache _ nd).length ≤ _
          rw [hnil]
          simpa using Nat.le_trans this (by simp)
        · rw [g1n hin] at hnil
          rw [hnil] at hin
          exact absurd rfl hin
    · cases h2
      refine ⟨g1.nodes, rfl, rfl, rfl, rfl, fun hin => ?_⟩
      show t1.nodeCache.length ≤ _
      rw [g1n hin]
      exact Nat.le_refl _
  obtain ⟨c1, c2, c3, c4, c5, c6⟩ := g2
  have hs : t2.stale.length ≤ tc.stale.length := by rw [c2]; exact g1.stale
  unfold TreeCache.freezeDrain at h
  split at h
  · cases h
    refine ⟨⟨t2.nodeCache.length, t2.numNewLeaves, t2.stale.length, t2.numStaleLeaves⟩, ?_, ?_, ?_, ?_, ?_, ?_, ?_, rfl, rfl, rfl, ?_⟩
    · have := AMap.length_extend_le t2.nodeCache t2.frozen.nodeBatch.nodes
      show (AMap.extend t2.frozen.nodeBatch.nodes t2.nodeCache).length ≤ _
      rw [c3, g1.frozen] at this ⊢
      exact this
    · have := AMap.length_extend_le t2.valueCache t2.frozen.nodeBatch.values
      show (AMap.extend t2.frozen.nodeBatch.values t2.valueCache).length ≤ _
      rw [c3, c4, g1.frozen, g1.values] at this ⊢
      exact this
    · show (t2.frozen.stale ++ List.filter _ (t2.stale.map _)).length ≤ _
      rw [List.length_append]
      have h3 := List.length_filter_le (fun i => decide (i ∉ t2.frozen.stale)) (t2.stale.map (fun k => (⟨t2.nextVersion, k⟩ : StaleNodeIndex)))
      rw [List.length_map] at h3
      have h4 : t2.frozen.stale = tc.frozen.stale := by rw [c3, ← g1.frozen]
      rw [h4] at h3 ⊢
      omega
    · show t2.frozen.stats ++ _ = _
      rw [c3, g1.frozen]
    · exact c1
    · exact hs
    · exact c6
    · show t2.rootNodeKey.path = []
      rw [c5, g1.root]; exact hr
  · cases h

/-- The staging area at the start of a value set: empty, or (first version only) the null root. -/
def Blank (tc : TreeCache) : Prop :=
  tc.rootNodeKey.path = [] ∧ tc.stale = [] ∧ tc.valueCache = [] ∧
  (tc.nodeCache = [] ∨ tc.nodeCache.length = 1 ∧ tc.nodeCache.get? tc.rootNodeKey = some .null)

theorem set_work {H : Hasher} {version : Version} {wp : Bool} {ws : ValueSet} {tc t tc' : TreeCache} {ps : List SMProof}
    (hb : Blank tc) (h : putAll H version wp ws tc = .ok (ps, t)) (hf : t.freeze H = .ok tc') :
    ∃ st : NodeStats, tc'.frozen.stats = tc.frozen.stats ++ [st] ∧ st.newNodes ≤ 66 * ws.length + 1 ∧
    st.staleNodes ≤ 66 * ws.length ∧
    tc'.frozen.nodeBatch.nodes.length ≤ tc.frozen.nodeBatch.nodes.length + (66 * ws.length + 1) ∧
    tc'.frozen.nodeBatch.values.length ≤ tc.frozen.nodeBatch.values.length + ws.length ∧
    tc'.frozen.stale.length ≤ tc.frozen.stale.length + 66 * ws.length ∧ Blank tc' := by
  obtain ⟨b1, b2, b3, b4⟩ := hb
  obtain ⟨a1, a2, a3, a4, a5⟩ := putAll_work b1 h
  obtain ⟨st, f1, f2, f3, f4, f5, f6, f7, f8, f9, f10, f11⟩ := freeze_work a5 hf
  rw [b2, List.length_nil] at a2
  rw [b3, List.length_nil] at a3
  have hn : st.newNodes ≤ 66 * ws.length + 1 := by
    rcases b4 with b4 | ⟨b4, b5⟩
    · rw [b4, List.length_nil] at a1; omega
    · cases ws with
      | nil =>
        cases h
        have := f7 (by rw [b5]; simp)
        simp only [List.length_nil]
        omega
      | cons w ws =>
        obtain ⟨k, x⟩ := w
        unfold putAll at h
        obtain ⟨⟨p, t1⟩, hp, h⟩ := bind_ok_inv h
        obtain ⟨ps1, -, h⟩ := bind_ok_inv h
        obtain ⟨⟨ps2, t2⟩, h2, h⟩ := bind_ok_inv h
        cases h
        have e1 := put_null_work (tc := tc.putValue version k x) b5 hp
        obtain ⟨-, -, -, -, e2⟩ := put_work (tc := tc.putValue version k x) b1 hp
        obtain ⟨e3, -⟩ := putAll_work e2 h2
        change _ ≤ tc.nodeCache.length + 1 at e1
        simp only [List.length_cons]
        omega
  rw [a4] at f1 f2 f3 f4
  exact ⟨st, f4, hn, by omega, by omega, by omega, by omega, f11, f10, f9, .inl f8⟩

theorem putSets_work {H : Hasher} {wp : Bool} : ∀ {sets : List ValueSet} {version : Version} {tc tc' : TreeCache}
    {pss : List (List SMProof)}, Blank tc → putSets H wp version sets tc = .ok (pss, tc') →
    ∃ sts : List NodeStats, tc'.frozen.stats = tc.frozen.stats ++ sts ∧ sts.length = sets.length ∧
    (∀ (j : Nat) (ws : ValueSet) (st : NodeStats), sets[j]? = some ws → sts[j]? = some st →
      st.newNodes ≤ 66 * ws.length + 1 ∧ st.staleNodes ≤ 66 * ws.length) ∧
    tc'.frozen.nodeBatch.nodes.length ≤ tc.frozen.nodeBatch.nodes.length + (66 * Spec.writesIn sets + sets.length) ∧
    tc'.frozen.nodeBatch.values.length ≤ tc.frozen.nodeBatch.values.length + Spec.writesIn sets ∧
    tc'.frozen.stale.length ≤ tc.frozen.stale.length + 66 * Spec.writesIn sets := by
  intro sets
  induction sets with
  | nil =>
    intro version tc tc' pss hb h
    cases h
    exact ⟨[], by simp, rfl, by simp, by omega, by omega, by omega⟩
  | cons ws sets ih =>
    intro version tc tc' pss hb h
    unfold putSets at h
    obtain ⟨⟨ps, t⟩, h1, h⟩ := bind_ok_inv h
    obtain ⟨t2, h2, h⟩ := bind_ok_inv h
    obtain ⟨⟨ps3, t3⟩, h3, h⟩ := bind_ok_inv h
    cases h
    obtain ⟨st, s1, s2, s3, s4, s5, s6, s7⟩ := set_work hb h1 h2
    obtain ⟨sts, q1, q2, q3, q4, q5, q6⟩ := ih s7 h3
    have hw : Spec.writesIn (ws :: sets) = ws.length + Spec.writesIn sets := by simp [Spec.writesIn]
    rw [hw]
    refine ⟨st :: sts, by rw [q1, s1]; simp, by simp [q2], ?_, by simp only [List.length_cons]; omega, by omega, by omega⟩
    intro j ws' st' hj hj'
    cases j with
    | zero => simp only [List.getElem?_cons_zero, Option.some.injEq] at hj hj'; subst hj; subst hj'; exact ⟨s2, s3⟩
    | succ j => exact q3 j ws' st' (by simpa using hj) (by simpa using hj')

theorem new_blank {R : Reader} {v : Version} {tc : TreeCache} (h : TreeCache.new R v = .ok tc) :
    Blank tc ∧ tc.frozen = Frozen.empty := by
  unfold TreeCache.new at h
  split at h
  · obtain ⟨pre, -, h⟩ := bind_ok_inv h
    cases pre with
    | some n => cases h; exact ⟨⟨rfl, rfl, rfl, .inl rfl⟩, rfl⟩
    | none => cases h; exact ⟨⟨rfl, rfl, rfl, .inr ⟨rfl, by simp⟩⟩, rfl⟩
  · cases h; exact ⟨⟨rfl, rfl, rfl, .inl rfl⟩, rfl⟩

end Jmt
