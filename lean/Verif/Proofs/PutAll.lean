import Verif.Proofs.InsertMain
/-!
# `put` and the loop over one value set
-/
namespace Jmt
open Spec (Entry)

/-- The cache when the tree is empty. -/
structure NullRoot (C : Ctx) (tc : TreeCache) : Prop where
  abs : ∀ q, q ≠ [] → Absent C tc q
  stale0 : ∀ w, (⟨w, []⟩ : NodeKey) ∈ tc.stale ↔ C.pres0 [] ∧ w = C.ver0 []
  root : (tc.rootNodeKey = ⟨C.V, []⟩ ∧ tc.nodeCache.get? ⟨C.V, []⟩ = some .null ∧
            ∀ w, w ≠ C.V → tc.nodeCache.get? ⟨w, []⟩ = none) ∨
         (tc.rootNodeKey = ⟨C.V, []⟩ ∧ ∀ w, tc.nodeCache.get? ⟨w, []⟩ = none) ∨
         (Old C.V C.rv ∧ tc.rootNodeKey = ⟨C.rv, []⟩ ∧ tc.nodeCache = [] ∧ tc.stale = [] ∧
            (C.B ⟨C.rv, []⟩ = .ok (some .null) ∨ C.B ⟨C.rv, []⟩ = .ok none))

/-- Invariant of the mutable cache while one version is built: the tree holds the entries `m`. -/
structure GInv (C : Ctx) (tc : TreeCache) (m : List Entry) (ver : List Nibble → Version) : Prop where
  tree : m ≠ [] → SubInv C tc m ver [] ∧ tc.rootNodeKey = ⟨ver [], []⟩ ∧
    (ver [] = C.V ∨ (tc.nodeCache = [] ∧ tc.stale = []))
  null : m = [] → NullRoot C tc
  count : CountInv C tc
  base : tc.base = C.B

/-- Fields untouched by `put` (the root key may move). -/
structure SameV (tc tc' : TreeCache) : Prop where
  next : tc'.nextVersion = tc.nextVersion
  vals : tc'.valueCache = tc.valueCache
  frozen : tc'.frozen = tc.frozen
  reader : tc'.reader = tc.reader

theorem Same.toV {a b : TreeCache} (h : Same a b) : SameV a b := ⟨h.next, h.vals, h.frozen, h.reader⟩
theorem SameV.refl (a : TreeCache) : SameV a a := ⟨rfl, rfl, rfl, rfl⟩
theorem SameV.trans {a b c : TreeCache} (h1 : SameV a b) (h2 : SameV b c) : SameV a c :=
  ⟨h2.next.trans h1.next, h2.vals.trans h1.vals, h2.frozen.trans h1.frozen, h2.reader.trans h1.reader⟩
theorem SameV.base {a b : TreeCache} (h : SameV a b) : b.base = a.base := by
  funext k; simp [TreeCache.base, h.frozen, h.reader]

/-- The proof `put` returns. -/
inductive PutProof (H : Hasher) (m : List Entry) (k : KeyHash) (x : Option ValueHash) : SMProof → Prop
  | noop : x = none → (∀ e ∈ m, e.1 ≠ k) → PutProof H m k x ⟨none, []⟩
  | change : (x = none → ∃ e ∈ m, e.1 = k) → PutProof H m k x (subProof H m [] k.nibbles)

/-- After writes to the keys `ks` every node of the new tree is either new, or an old node that is on the path of none
of the written keys still present (`new`); it is old unless its parent is on the path of a written key (`near`); and,
when nothing was deleted (`ins`), the old nodes off the paths of the written keys are untouched (`keep`). The root is new
exactly when some write had an effect (`eff`). Exactly the nodes in `ren` are new. -/
structure Fresh (V : Version) (m : List Entry) (ver : List Nibble → Version) (m' : List Entry)
    (ver' : List Nibble → Version) (ks : List KeyHash) (ins eff : Prop) (ren : List Nibble → Prop) : Prop where
  new : ∀ q, pres m' [] q → ver' q = V ∨ (ver' q = ver q ∧ pres m [] q ∧
    ∀ k ∈ ks, (∃ e ∈ m', e.1 = k) → ¬ q <+: k.nibbles)
  near : ∀ q, pres m' [] q → (pres m [] q ∧ ver' q = ver q) ∨ ∃ k ∈ ks, q.dropLast <+: k.nibbles
  keep : ins → ∀ q, pres m [] q → pres m' [] q → (∀ k ∈ ks, ¬ q <+: k.nibbles) → ver' q = ver q
  root : m' ≠ [] → (eff → ver' [] = V) ∧ (¬ eff → ver' [] = ver [])
  exact : ∀ q, pres m' [] q → (ren q → ver' q = V) ∧ (¬ ren q → ver' q = ver q ∧ pres m [] q)

/-- One write renews the node at `q`: it has an effect, and its key passes through `q` or there was no node at `q`. -/
def Renew1 (m : List Entry) (k : KeyHash) (x : Option ValueHash) (q : List Nibble) : Prop :=
  (x ≠ none ∨ ∃ e ∈ m, e.1 = k) ∧ (q <+: k.nibbles ∨ ¬ pres m [] q)

/-- Some write of the set renews the node at `q`. -/
def Renewed (H : Hasher) : List Entry → ValueSet → List Nibble → Prop
  | _, [], _ => False
  | m, (k, x) :: ws, q => Renew1 m k (x.map H.hash) q ∨ Renewed H (upd m k (x.map H.hash)) ws q

/-- Some write of the set is not the removal of a key that is absent. -/
def Effective (m : List Entry) (ws : ValueSet) : Prop := ∃ w ∈ ws, w.2 ≠ none ∨ ∃ e ∈ m, e.1 = w.1

theorem Touch.fresh {V : Nat} {m : List Entry} {ver ver' : List Nibble → Version} {k : KeyHash} {x : Option ValueHash}
    {ins eff : Prop} (h : Touch V m ver (upd m k x) ver' [] k) (hv : ver' [] = V) (he : eff)
    (hx : x ≠ none ∨ ∃ e ∈ m, e.1 = k) :
    Fresh V m ver (upd m k x) ver' [k] ins eff (Renew1 m k x) := by
  refine ⟨fun q hq => ?_, fun q hq => ?_, fun _ q hq hq' hn => h.keep q hq hq' (hn k (by simp)),
    fun _ => ⟨fun _ => hv, fun h => absurd he h⟩, fun q hq => ⟨?_, fun hn => ?_⟩⟩
  rotate_left 2
  · rintro ⟨-, h1 | h1⟩
    · rcases h.new q hq with h2 | ⟨-, -, h2⟩
      · exact h2
      · exact absurd h1 h2
    · rcases h.new q hq with h2 | ⟨-, h2, -⟩
      · exact h2
      · exact absurd h2 h1
  · have h1 : ¬ q <+: k.nibbles := fun h => hn ⟨hx, .inl h⟩
    have h2 : pres m [] q := Classical.byContradiction (fun h => hn ⟨hx, .inr h⟩)
    exact ⟨h.keep q h2 hq h1, h2⟩
  · rcases h.new q hq with h | ⟨h1, h2, h3⟩
    · exact .inl h
    · refine .inr ⟨h1, h2, fun k' hk' _ => ?_⟩
      rw [List.mem_singleton.1 hk']; exact h3
  · by_cases hqk : q <+: k.nibbles
    · exact .inr ⟨k, by simp, (List.dropLast_prefix q).trans hqk⟩
    · by_cases hd : q.dropLast <+: k.nibbles
      · exact .inr ⟨k, by simp, hd⟩
      · have hpre : pres m [] q := by
          obtain ⟨h1, h2, h3⟩ := hq
          rw [under_upd_of_not_prefix hqk] at h2
          rw [under_upd_of_not_prefix hd] at h3
          exact ⟨h1, h2, h3⟩
        exact .inl ⟨hpre, h.keep q hpre hq hqk⟩

theorem length_upd_some {m : List Entry} (hm : NodupE m) (k : KeyHash) (v : ValueHash) :
    m.length ≤ (upd m k (some v)).length := by
  have := length_le_upd hm k none
  unfold upd at this ⊢
  simp at this ⊢
  omega

theorem length_under_upd_some {m : List Entry} (hm : NodupE m) (k : KeyHash) (v : ValueHash) (q : List Nibble) :
    (under q m).length ≤ (under q (upd m k (some v))).length := by
  by_cases hk : q <+: k.nibbles
  · rw [under_upd_of_prefix hk]; exact length_upd_some (hm.filter _) k v
  · rw [under_upd_of_not_prefix hk]; exact Nat.le_refl _

theorem pres_upd_some {m : List Entry} (hm : NodupE m) (k : KeyHash) (v : ValueHash) {p q : List Nibble} (h : pres m p q) :
    pres (upd m k (some v)) p q := by
  obtain ⟨h1, h2, h3⟩ := h
  refine ⟨h1, ?_, h3.imp id (fun h => Nat.le_trans h (length_under_upd_some hm k v _))⟩
  have := length_under_upd_some hm k v q
  intro hc
  rw [hc] at this
  exact h2 (List.eq_nil_of_length_eq_zero (by simpa using this))

section
variable {C : Ctx} {tc tc' : TreeCache} {m m' : List Entry} {ver ver' ver1 : List Nibble → Version}
  {p q rem : List Nibble} {k : KeyHash} {x : Option ValueHash} {wp : Bool}

theorem AgreeAt.setRoot (q nk) : AgreeAt tc (tc.setRootNodeKey nk) q := fun _ => ⟨rfl, Iff.rfl⟩

theorem CountInv.setRoot (h : CountInv C tc) (nk) : CountInv C (tc.setRootNodeKey nk) :=
  ⟨h.nodup, h.staleNodup, h.newLeaves, h.staleLeaves⟩

theorem subProof_nil (H : Hasher) (rem : List Nibble) : subProof H [] [] rem = ⟨none, []⟩ := by
  unfold subProof
  rw [walk_stop (by simp)]; simp

theorem under_root (m : List Entry) : under [] m = m := by simp

theorem nil_prefix (q : List Nibble) : ([] : List Nibble) <+: q := ⟨q, rfl⟩

/-- `put` once the tree is non-empty. -/
theorem put_tree_spec (hm : NodupE m) (hne : m ≠ []) (g : GInv C tc m ver) :
    ∃ P tc' ver', put C.H k x C.V tc wp = .ok (proofOpt wp P, tc') ∧ PutProof C.H m k x P ∧
      GInv C tc' (upd m k x) ver' ∧ SameV tc tc' ∧
      Fresh C.V m ver (upd m k x) ver' [k] (x ≠ none) (x ≠ none ∨ ∃ e ∈ m, e.1 = k) (Renew1 m k x) ∧
      (upd m k x = [] → tc'.nodeCache.get? ⟨C.V, []⟩ = some .null) := by
  obtain ⟨hs, hroot, hcl⟩ := g.tree hne
  obtain ⟨r, pf, tc1, h1, h2⟩ := insertAt_spec (wp := wp) (x := x) (k := k) hm k.nibbles [] tc rfl
    (by rwa [under_root]) hs g.count g.base
  unfold put
  rw [hroot, h1, ok_bind]
  cases h2 with
  | noop hx hnk =>
    refine ⟨⟨none, []⟩, tc, ver, rfl, PutProof.noop hx hnk, ?_, SameV.refl _, ?_, ?_⟩
    · subst hx
      rw [upd_none_of_not_mem hnk]; exact g
    rotate_left
    · subst hx
      rw [upd_none_of_not_mem hnk]; exact fun h => absurd h hne
    · subst hx
      rw [upd_none_of_not_mem hnk]
      refine ⟨fun q hq => ?_, fun q hq => .inl ⟨hq, rfl⟩, fun _ _ _ _ _ => rfl,
        fun _ => ⟨fun h => ?_, fun _ => rfl⟩, fun q hq => ⟨?_, fun _ => ⟨rfl, hq⟩⟩⟩
      rotate_left 2
      · rintro ⟨h | ⟨e, he, hek⟩, -⟩
        · exact absurd rfl h
        · exact absurd hek (hnk e he)
      rotate_left
      · rcases h with h | ⟨e, he, hek⟩
        · exact absurd rfl h
        · exact absurd hek (hnk e he)
      refine .inr ⟨rfl, hq, ?_⟩
      rintro k' hk' ⟨e, he, hek⟩
      rw [List.mem_singleton.1 hk'] at hek
      exact absurd hek (hnk e he)
  | removed hx hex hu habs hsame hci hag =>
    rw [under_root] at hu
    simp only
    have habs0 := habs [] (nil_prefix _)
    obtain ⟨tc2, p1, p2, p3, p4, p5⟩ := putNode_spec
      (((habs0.frame (AgreeAt.setRoot (tc := tc1) [] (NodeKey.root C.V)))) [] ver)
      (hci.setRoot (NodeKey.root C.V)) .null
    refine ⟨subProof C.H m [] k.nibbles, tc2, ver, ?_, PutProof.change (fun _ => hex), ?_, ?_⟩
    · have : NodeKey.root C.V = ⟨C.V, []⟩ := rfl
      simp only [this] at p1 ⊢
      rw [p1]; rfl
    · refine ⟨fun h => absurd hu h, fun _ => ?_, p3, ?_⟩
      · have hpi := p5 [] (fun _ => C.V) rfl (canonNode_nil (by simp))
        have hcache : tc2.nodeCache.get? ⟨C.V, []⟩ ≠ none := by
          have p1' : (tc1.setRootNodeKey (NodeKey.root C.V)).putNode ⟨C.V, []⟩ .null = .ok tc2 := p1
          unfold TreeCache.putNode at p1'
          split at p1'
          · cases p1'
          · cases p1'
            show (AMap.insert _ _ _).get? _ ≠ none
            rw [AMap.get?_insert, if_pos rfl]; simp
        refine ⟨fun q hq => ?_, fun w => ?_, .inl ⟨p2.root, ?_, ?_⟩⟩
        · exact ((habs q (nil_prefix _)).frame (AgreeAt.setRoot _ _)).frame (p4 q hq)
        · rw [hpi.stale w]
          constructor
          · rintro ⟨a, b, -⟩; exact ⟨a, b⟩
          · rintro ⟨a, b⟩
            refine ⟨a, b, ?_⟩
            rintro ⟨-, h3, h4⟩
            rcases hpi.stored trivial with ⟨-, h5⟩ | ⟨h5, -⟩
            · rw [← h3, h5] at h4; cases h4
            · exact absurd h5 hcache
        · rcases hpi.stored trivial with ⟨-, h3⟩ | ⟨h3, -⟩
          · rw [h3, canonNode_nil (by simp)]
          · exact absurd h3 hcache
        · intro w hw
          cases hg : tc2.nodeCache.get? ⟨w, []⟩ with
          | none => rfl
          | some n => exact absurd (hpi.dom w n hg).1 hw
      · rw [p2.base]
        exact hsame.base.trans g.base
    · refine ⟨⟨p2.next.trans hsame.next, p2.vals.trans hsame.vals, p2.frozen.trans hsame.frozen,
        p2.reader.trans hsame.reader⟩, ?_⟩
      have hno : ∀ q, ¬ pres (upd m k x) [] q := by rw [hu]; exact fun q hq => absurd (by simp [under]) hq.2.1
      refine ⟨⟨fun q hq => absurd hq (hno q), fun q hq => absurd hq (hno q), fun _ q _ hq => absurd hq (hno q), fun h => absurd hu h, fun q hq => absurd hq (hno q)⟩, fun _ => ?_⟩
      have p1' : (tc1.setRootNodeKey (NodeKey.root C.V)).putNode ⟨C.V, []⟩ .null = .ok tc2 := p1
      unfold TreeCache.putNode at p1'
      split at p1'
      · cases p1'
      · cases p1'
        show (AMap.insert _ _ _).get? _ = _
        rw [AMap.get?_insert, if_pos rfl]
  | updated ver' hex hu hv hv' hsub hsame hci hag htouch =>
    rw [under_root] at hu
    have hxe : x ≠ none ∨ ∃ e ∈ m, e.1 = k := by
      cases x with
      | none => exact .inr (hex rfl)
      | some v => exact .inl (by simp)
    refine ⟨subProof C.H m [] k.nibbles, tc1.setRootNodeKey ⟨C.V, []⟩, ver', rfl,
      PutProof.change hex, ?_, hsame.toV.trans ⟨rfl, rfl, rfl, rfl⟩, htouch.fresh hv hxe hxe, fun h => absurd h hu⟩
    refine ⟨fun _ => ⟨hsub.frame (fun q _ => AgreeAt.setRoot _ _), ?_, .inl hv⟩,
      fun h => absurd h hu, hci.setRoot _, ?_⟩
    · rw [hv]; rfl
    · exact hsame.base.trans g.base

/-- Storing the first leaf of an empty tree. -/
theorem put_first (habs : ∀ q, Absent C tc q) (ci : CountInv C tc)
    (hb : tc.base = C.B) (v : ValueHash) :
    ∃ tc', createLeafNode tc (NodeKey.root C.V) [] k.nibbles v
        = .ok (⟨C.V, []⟩, .leaf ⟨k, v⟩, tc') ∧ SameV tc tc' ∧
      GInv C (tc'.setRootNodeKey ⟨C.V, []⟩) [(k, v)] (fun _ => C.V) := by
  obtain ⟨tc', h1, h2, h3, h4, h5⟩ := createLeaf_spec (habs []) ci (vis := []) (rm := k.nibbles)
    (k := k) rfl v
  refine ⟨tc', h1, h2.toV, ⟨fun _ => ⟨?_, rfl, .inl rfl⟩, fun h => by simp at h, h3.setRoot _,
    h2.base.trans hb⟩⟩
  refine SubInv.frame (tc := tc') (SubInv.mk1 (h5 _ _ rfl (canonNode_one (e := (k, v)) (under_root _)))
      (by rw [under_root]; rfl) ?_)
    (fun q _ => AgreeAt.setRoot _ _)
  intro q _ hq
  exact (habs q).frame (h4 q hq)

/-- Dropping the cached null root. -/
theorem deleteNull_spec (g : GInv C tc [] ver) (h1 : tc.rootNodeKey = ⟨C.V, []⟩)
    (h2 : tc.nodeCache.get? ⟨C.V, []⟩ = some .null) (h3 : ∀ w, w ≠ C.V → tc.nodeCache.get? ⟨w, []⟩ = none) :
    ∃ tc1, tc.deleteNode ⟨C.V, []⟩ false = .ok tc1 ∧ SameV tc tc1 ∧ CountInv C tc1 ∧ (∀ q, Absent C tc1 q) ∧
      (x = none → GInv C tc1 [] ver) ∧ tc1.rootNodeKey = tc.rootNodeKey := by
  have hn := g.null rfl
  have hd : tc.deleteNode ⟨C.V, []⟩ false
      = .ok { tc with nodeCache := tc.nodeCache.erase ⟨C.V, []⟩ } := by
    unfold TreeCache.deleteNode
    rw [h2]; simp
  have hcount : CountInv C { tc with nodeCache := tc.nodeCache.erase ⟨C.V, []⟩ } := by
    refine ⟨g.count.nodup.erase _, g.count.staleNodup, ?_, g.count.staleLeaves⟩
    have := AMap.countP_erase g.count.nodup h2 (fun e => e.2.isLeaf)
    simp only [Node.isLeaf, Bool.false_eq_true, ↓reduceIte, Nat.add_zero] at this
    exact g.count.newLeaves.trans this.symm
  have hag : ∀ q, q ≠ [] →
      AgreeAt tc { tc with nodeCache := tc.nodeCache.erase ⟨C.V, []⟩ } q := by
    intro q hq w
    refine ⟨?_, Iff.rfl⟩
    show (tc.nodeCache.erase ⟨C.V, []⟩).get? _ = _
    rw [AMap.get?_erase, if_neg]
    intro h; cases h; exact hq rfl
  have hnone : ∀ w, (tc.nodeCache.erase ⟨C.V, []⟩).get? ⟨w, []⟩ = none := by
    intro w
    rw [AMap.get?_erase]
    split
    · rfl
    · rename_i hw
      exact h3 w (by rintro rfl; exact hw rfl)
  have habs1 : ∀ q, Absent C { tc with nodeCache := tc.nodeCache.erase ⟨C.V, []⟩ } q := by
    intro q
    by_cases hq : q = []
    · subst hq
      intro m ver
      refine ⟨fun h => h.elim, fun w n hw => ?_, fun w => ?_⟩
      · have hw' : (tc.nodeCache.erase ⟨C.V, []⟩).get? ⟨w, []⟩ = some n := hw
        rw [hnone w] at hw'; simp at hw'
      · show _ ∈ tc.stale ↔ _
        rw [hn.stale0]; simp
    · exact (hn.abs q hq).frame (hag q hq)
  refine ⟨_, hd, ⟨rfl, rfl, rfl, rfl⟩, hcount, habs1, fun _ => ?_, rfl⟩
  exact ⟨fun h => absurd rfl h, fun _ => ⟨fun q _ => habs1 q, hn.stale0, .inr (.inl ⟨h1, hnone⟩)⟩,
    hcount, g.base⟩

/-- The root node that `put` and `freeze` look up is not one that was dropped from the cache: a look-up of the new root key does
not go to the store. -/
def NotDropped (C : Ctx) (tc : TreeCache) : Prop :=
  tc.rootNodeKey = ⟨C.V, []⟩ → tc.nodeCache.get? ⟨C.V, []⟩ ≠ none

/-- `put` on an empty tree. -/
theorem put_null_spec (hfresh : C.B ⟨C.V, []⟩ = .ok none ∨ NotDropped C tc) (g : GInv C tc [] ver) :
    ∃ P tc' ver', put C.H k x C.V tc wp = .ok (proofOpt wp P, tc') ∧ PutProof C.H [] k x P ∧
      GInv C tc' (upd [] k x) ver' ∧ SameV tc tc' ∧
        Fresh C.V [] ver (upd [] k x) ver' [k] (x ≠ none) (x ≠ none ∨ ∃ e ∈ ([] : List Entry), e.1 = k) (Renew1 [] k x) := by
  have hn := g.null rfl
  have habs0 : (∀ w, tc.nodeCache.get? ⟨w, []⟩ = none) → ∀ q, Absent C tc q := by
    intro h q
    by_cases hq : q = []
    · subst hq
      intro m ver
      refine ⟨fun h => h.elim, fun w n hw => ?_, fun w => ?_⟩
      · rw [h w] at hw; simp at hw
      · rw [hn.stale0]; simp
    · exact hn.abs q hq
  have hPP : PutProof C.H [] k x ⟨none, []⟩ := by
    cases x with
    | none => exact PutProof.noop rfl (by simp)
    | some v => rw [← subProof_nil C.H k.nibbles]; exact PutProof.change (by simp)
  -- reading the root node: present or not
  have step : ∀ (al : Bool) (rv : Version), tc.rootNodeKey = ⟨rv, []⟩ →
      tc.getNodeOption ⟨rv, []⟩ = .ok (if al then some .null else none) →
      (∃ tc1, (if rv = C.V ∧ al = true then tc.deleteNode ⟨rv, []⟩ false else .ok tc) = .ok tc1 ∧
        SameV tc tc1 ∧ CountInv C tc1 ∧ (∀ q, Absent C tc1 q) ∧ (x = none → GInv C tc1 [] ver)) →
      ∃ P tc' ver', put C.H k x C.V tc wp = .ok (proofOpt wp P, tc') ∧ PutProof C.H [] k x P ∧
        GInv C tc' (upd [] k x) ver' ∧ SameV tc tc' ∧
        Fresh C.V [] ver (upd [] k x) ver' [k] (x ≠ none) (x ≠ none ∨ ∃ e ∈ ([] : List Entry), e.1 = k) (Renew1 [] k x) := by
    intro al rv hrk hget ⟨tc1, b1, b2, b3, b4, b5⟩
    cases x with
    | none =>
      refine ⟨⟨none, []⟩, tc1, ver, ?_, hPP, b5 rfl, b2,
        ⟨fun q hq => absurd (by simp [under, upd]) hq.2.1, fun q hq => absurd (by simp [under, upd]) hq.2.1,
          fun h => absurd rfl h, fun h => absurd (by simp [upd]) h, fun q hq => absurd (by simp [under, upd]) hq.2.1⟩⟩
      unfold put insertAt
      rw [hrk, hget]
      cases al <;>
      · simp only [ok_bind, Bool.false_eq_true, ↓reduceIte, insertAtNull, ne_eq, not_true_eq_false]
        simp only [Bool.false_eq_true, and_false, ↓reduceIte, and_true] at b1
        simp only [Bool.false_eq_true, and_false, ↓reduceIte, and_true, b1, ok_bind]
        rfl
    | some v =>
      obtain ⟨tc2, a1, a2, a3⟩ := put_first (k := k) b4 b3 (b2.base.trans g.base) v
      refine ⟨⟨none, []⟩, tc2.setRootNodeKey ⟨C.V, []⟩, _, ?_, hPP, a3,
        ⟨a2.next.trans b2.next, a2.vals.trans b2.vals, a2.frozen.trans b2.frozen,
          a2.reader.trans b2.reader⟩, fun q _ => .inl rfl, fun q hq => .inr ⟨k, by simp, ?_⟩,
          fun _ q hq => absurd (by simp [under]) hq.2.1,
          fun _ => ⟨fun _ => rfl, fun h => absurd (.inl (by simp)) h⟩,
          fun q _ => ⟨fun _ => rfl, fun h => absurd ⟨.inl (by simp), .inr (fun hc => absurd (by simp [under]) hc.2.1)⟩ h⟩⟩
      rotate_left
      · have hq0 : q = [] := by
          apply Decidable.byContradiction
          intro hqp
          exact not_pres_below hq.1 hqp (by rw [under_root]; simp [upd]) hq
        rw [hq0]; exact nil_prefix _
      unfold put insertAt
      rw [hrk, hget]
      cases al <;>
      · simp only [ok_bind, Bool.false_eq_true, ↓reduceIte, insertAtNull, ne_eq, not_true_eq_false]
        simp only [Bool.false_eq_true, and_false, ↓reduceIte, and_true] at b1
        simp only [Bool.false_eq_true, and_false, ↓reduceIte, and_true, b1, ok_bind, a1]
        rfl
  rcases hn.root with ⟨h1, h2, h3⟩ | ⟨h1, h2⟩ | ⟨h1, h2, h3, h4, h5⟩
  · refine step true C.V h1 (by simp [TreeCache.getNodeOption, h2]) ?_
    simp only [and_self, ↓reduceIte]
    obtain ⟨tc1, d1, d2, d3, d4, d5, -⟩ := deleteNull_spec (x := x) g h1 h2 h3
    exact ⟨tc1, d1, d2, d3, d4, d5⟩
  · refine step false C.V h1 ?_ ⟨tc, by simp, SameV.refl _, g.count, habs0 h2, fun _ => g⟩
    have hfresh := hfresh.resolve_right (fun h => h h1 (h2 _))
    simp only [TreeCache.getNodeOption, h2, g.base, hfresh, Bool.false_eq_true, ↓reduceIte]
  · have hnil : ∀ w, tc.nodeCache.get? ⟨w, []⟩ = none := by rw [h3]; simp
    have hstep := fun al hget => step al C.rv h2 hget
      ⟨tc, by simp [h1.1], SameV.refl _, g.count, habs0 hnil, fun _ => g⟩
    rcases h5 with h5 | h5
    · exact hstep true (by simp only [TreeCache.getNodeOption, hnil, g.base, h5, ↓reduceIte])
    · exact hstep false (by
        simp only [TreeCache.getNodeOption, hnil, g.base, h5, Bool.false_eq_true, ↓reduceIte])

/-- One `put`. -/
theorem put_spec (hfresh : C.B ⟨C.V, []⟩ = .ok none ∨ (m = [] → x ≠ none ∧ NotDropped C tc)) (hm : NodupE m)
    (g : GInv C tc m ver) (wp : Bool) :
    ∃ P tc' ver', put C.H k x C.V tc wp = .ok (proofOpt wp P, tc') ∧ PutProof C.H m k x P ∧
      GInv C tc' (upd m k x) ver' ∧ SameV tc tc' ∧
      Fresh C.V m ver (upd m k x) ver' [k] (x ≠ none) (x ≠ none ∨ ∃ e ∈ m, e.1 = k) (Renew1 m k x) ∧
      (C.B ⟨C.V, []⟩ = .ok none ∨ (upd m k x = [] → NotDropped C tc')) := by
  by_cases hne : m = []
  · subst hne
    obtain ⟨P, tc', ver', h1, h2, h3, h4, h5⟩ := put_null_spec (k := k) (x := x) (wp := wp)
      (hfresh.imp id (fun h => (h rfl).2)) g
    refine ⟨P, tc', ver', h1, h2, h3, h4, h5, hfresh.imp id (fun h hu => ?_)⟩
    cases x with
    | none => exact absurd rfl (h rfl).1
    | some v => simp [upd] at hu
  · obtain ⟨P, tc', ver', h1, h2, h3, h4, h5, h6⟩ := put_tree_spec (k := k) (x := x) (wp := wp) hm hne g
    exact ⟨P, tc', ver', h1, h2, h3, h4, h5, .inr (fun h _ => by rw [h6 h]; simp)⟩

end
end Jmt
