import Verif.Proofs.PutAll
/-!
# One value set: the loop and `freeze`
-/
namespace Jmt
open Spec (Entry)

/-- The entries after the writes of one value set. -/
def updAll (H : Hasher) (m : List Entry) (ws : ValueSet) : List Entry :=
  ws.foldl (fun m w => upd m w.1 (w.2.map H.hash)) m

/-- The value cache after the writes of one value set. -/
def valAll (V : Version) (vc : AMap (Version × KeyHash) (Option Value)) (ws : ValueSet) :
    AMap (Version × KeyHash) (Option Value) :=
  ws.foldl (fun vc w => AMap.insert vc (V, w.1) w.2) vc

/-- One proof per write, each against the entries before that write. -/
inductive ProofsFor (H : Hasher) : List Entry → ValueSet → List SMProof → Prop
  | nil (m) : ProofsFor H m [] []
  | cons {m k x P rest ps} : PutProof H m k (x.map H.hash) P →
      ProofsFor H (upd m k (x.map H.hash)) rest ps → ProofsFor H m ((k, x) :: rest) (P :: ps)

theorem NodupE.updAll {H : Hasher} {m : List Entry} (h : NodupE m) (ws : ValueSet) :
    NodupE (updAll H m ws) := by
  induction ws generalizing m with
  | nil => exact h
  | cons w ws ih => exact ih (h.upd _ _)

section
variable {C : Ctx} {tc tc' : TreeCache} {m m' : List Entry} {ver ver' ver1 : List Nibble → Version}
  {p q rem : List Nibble} {k : KeyHash} {x : Option ValueHash} {wp : Bool}

/-- Writes to other keys do not matter. -/
theorem mem_updAll_of_not_mem {H : Hasher} {ws : ValueSet} : ∀ {m : List Entry} {e : Entry}, e.1 ∉ ws.map Prod.fst →
    (e ∈ updAll H m ws ↔ e ∈ m) := by
  induction ws with
  | nil => intro m e _; exact Iff.rfl
  | cons w ws ih =>
    intro m e h
    simp only [List.map_cons, List.mem_cons, not_or] at h
    show e ∈ updAll H (upd m w.1 (w.2.map H.hash)) ws ↔ _
    rw [ih h.2, mem_upd]
    constructor
    · rintro (⟨h1, -⟩ | h1)
      · exact absurd h1 h.1
      · exact h1.1
    · intro h1; exact .inr ⟨h1, h.1⟩

/-- `GInv` depends on the node part of the cache only. -/
theorem GInv.of_eq (g : GInv C tc m ver) (h1 : tc'.nodeCache = tc.nodeCache)
    (h2 : tc'.stale = tc.stale) (h3 : tc'.rootNodeKey = tc.rootNodeKey)
    (h4 : tc'.numNewLeaves = tc.numNewLeaves) (h5 : tc'.numStaleLeaves = tc.numStaleLeaves)
    (h6 : tc'.base = tc.base) : GInv C tc' m ver := by
  have hag : ∀ q, AgreeAt tc tc' q := fun q w => by rw [h1, h2]; exact ⟨rfl, Iff.rfl⟩
  refine ⟨fun hne => ?_, fun hm => ?_, ?_, h6.trans g.base⟩
  · obtain ⟨a, b, c⟩ := g.tree hne
    exact ⟨a.frame (fun q _ => hag q), h3.trans b, by rw [h1, h2]; exact c⟩
  · obtain ⟨a, b, c⟩ := g.null hm
    refine ⟨fun q hq => (a q hq).frame (hag q), by rw [h2]; exact b, ?_⟩
    rw [h1, h2, h3]; exact c
  · exact ⟨by rw [h1]; exact g.count.nodup, by rw [h2]; exact g.count.staleNodup,
      by rw [h1, h4]; exact g.count.newLeaves, by rw [h2, h5]; exact g.count.staleLeaves⟩

/-- No write of `ws`, applied to `m` in order, deletes from an empty tree. -/
def SafeDel (H : Hasher) : List Entry → ValueSet → Prop
  | _, [] => True
  | m, w :: ws => (m = [] → w.2 ≠ none) ∧ SafeDel H (upd m w.1 (w.2.map H.hash)) ws

/-- The root of an empty tree can be read back: nothing is stored at its key, or its key is not looked up in the store
and no write will delete from an empty tree. -/
def RootOk (C : Ctx) (tc : TreeCache) (m : List Entry) (ws : ValueSet) : Prop :=
  C.B ⟨C.V, []⟩ = .ok none ∨ (SafeDel C.H m ws ∧ (m = [] → NotDropped C tc))

theorem updAll_of_not_effective {H : Hasher} {ws : ValueSet} : ∀ {m : List Entry}, ¬ Effective m ws → updAll H m ws = m := by
  induction ws with
  | nil => intro m _; rfl
  | cons w ws ih =>
    intro m h
    obtain ⟨k, x⟩ := w
    have hx : x = none := by
      cases x with
      | none => rfl
      | some v => exact absurd ⟨(k, some v), by simp, .inl (by simp)⟩ h
    subst hx
    have hu : upd m k (Option.map H.hash none) = m :=
      upd_none_of_not_mem (fun e he hk => h ⟨(k, none), by simp, .inr ⟨e, he, hk⟩⟩)
    show updAll H (upd m k (Option.map H.hash none)) ws = m
    rw [hu]
    exact ih (fun ⟨w, hw, h'⟩ => h ⟨w, List.mem_cons_of_mem _ hw, h'⟩)

theorem putAll_spec (wp : Bool) :
    ∀ (ws : ValueSet) (m : List Entry) (ver : List Nibble → Version) (tc : TreeCache),
    RootOk C tc m ws → NodupE m → GInv C tc m ver →
    ∃ ps tc' ver', putAll C.H C.V wp ws tc = .ok (ps, tc') ∧ GInv C tc' (updAll C.H m ws) ver' ∧
      (wp = true → ProofsFor C.H m ws ps) ∧ (wp = false → ps = []) ∧
      tc'.valueCache = valAll C.V tc.valueCache ws ∧ tc'.nextVersion = tc.nextVersion ∧
      tc'.frozen = tc.frozen ∧ tc'.reader = tc.reader ∧
      Fresh C.V m ver (updAll C.H m ws) ver' (ws.map Prod.fst) (∀ w ∈ ws, w.2 ≠ none) (Effective m ws)
        (Renewed C.H m ws) ∧
      RootOk C tc' (updAll C.H m ws) [] := by
  intro ws
  induction ws with
  | nil =>
    intro m ver tc hro hm g
    exact ⟨[], tc, ver, rfl, g, fun _ => ProofsFor.nil m, fun _ => rfl, rfl, rfl, rfl, rfl,
      ⟨fun q hq => .inr ⟨rfl, hq, by simp⟩, fun q hq => .inl ⟨hq, rfl⟩, fun _ _ _ _ _ => rfl,
        fun _ => ⟨fun ⟨w, hw, _⟩ => absurd hw (by simp), fun _ => rfl⟩, fun q hq => ⟨fun h => h.elim, fun _ => ⟨rfl, hq⟩⟩⟩, hro⟩
  | cons w ws ih =>
    intro m ver tc hro hm g
    obtain ⟨k, x⟩ := w
    have g1 : GInv C (tc.putValue C.V k x) m ver := g.of_eq rfl rfl rfl rfl rfl rfl
    obtain ⟨P, tc2, ver2, p1, p2, p3, p4, p5, p6⟩ := put_spec (k := k) (x := x.map C.H.hash)
      (hro.imp id (fun h hm => ⟨by have := h.1.1 hm; cases x <;> simp at this ⊢, h.2 hm⟩)) hm g1 wp
    obtain ⟨ps, tc3, ver3, a1, a2, a3, a4, a5, a6, a7, a8, a9, a10⟩ := ih _ _ _ (by
      rcases hro with h | h
      · exact .inl h
      · rcases p6 with h6 | h6
        · exact .inl h6
        · exact .inr ⟨h.1.2, h6⟩) (hm.upd _ _) p3
    refine ⟨(if wp then [P] else []) ++ ps, tc3, ver3, ?_, a2, ?_, ?_, ?_, ?_, ?_, ?_, ?_, a10⟩
    · unfold putAll
      simp only [p1, ok_bind]
      cases wp <;> simp [proofOpt, a1]
    · intro h
      subst h
      exact ProofsFor.cons p2 (a3 rfl)
    · intro h
      subst h
      simpa using a4 rfl
    · rw [a5, p4.vals]; rfl
    · rw [a6, p4.next]; rfl
    · rw [a7, p4.frozen]; rfl
    · rw [a8, p4.reader]; rfl
    · refine ⟨fun q hq => ?_, fun q hq => ?_, fun hins q hq hq' hn => ?_, fun hm' => ?_, fun q hq => ?_⟩
      rotate_left 4
      · obtain ⟨e1, e2⟩ := a9.exact q hq
        constructor
        · rintro (h | h)
          · by_cases h2 : Renewed C.H (upd m k (x.map C.H.hash)) ws q
            · exact e1 h2
            · obtain ⟨e3, e4⟩ := e2 h2
              rw [e3]; exact (p5.exact q e4).1 h
          · exact e1 h
        · intro h
          obtain ⟨e3, e4⟩ := e2 (fun h' => h (.inr h'))
          obtain ⟨e5, e6⟩ := (p5.exact q e4).2 (fun h' => h (.inl h'))
          exact ⟨e3.trans e5, e6⟩
      rotate_left
      · rcases a9.near q hq with ⟨h1, h2⟩ | ⟨k', h1, h2⟩
        · rcases p5.near q h1 with ⟨h3, h4⟩ | ⟨k', h3, h4⟩
          · exact .inl ⟨h3, h2.trans h4⟩
          · rw [List.mem_singleton.1 h3] at h4; exact .inr ⟨k, by simp, h4⟩
        · exact .inr ⟨k', by simp only [List.map_cons, List.mem_cons]; exact .inr h1, h2⟩
      · have hx : x ≠ none := hins (k, x) (by simp)
        have hq1 : pres (upd m k (x.map C.H.hash)) [] q := by
          cases x with
          | none => exact absurd rfl hx
          | some v => exact pres_upd_some hm k _ hq
        rw [a9.keep (fun w hw => hins w (by simp [hw])) q hq1 hq' (fun k' hk' => hn k' (by
          simp only [List.map_cons, List.mem_cons]; exact .inr hk')),
          p5.keep (by cases x <;> simp at hx ⊢) q hq hq1 (fun k' hk' => hn k' (by
            rw [List.mem_singleton.1 hk']; simp))]
      · have hx0 : x.map C.H.hash ≠ none ↔ x ≠ none := by cases x <;> simp
        have h2 := a9.root hm'
        by_cases h0 : x ≠ none ∨ ∃ e ∈ m, e.1 = k
        · refine ⟨fun _ => ?_, fun h => absurd ⟨(k, x), by simp, h0⟩ h⟩
          by_cases he : Effective (upd m k (x.map C.H.hash)) ws
          · exact h2.1 he
          · rw [h2.2 he]
            rw [show updAll C.H m ((k, x) :: ws) = updAll C.H (upd m k (x.map C.H.hash)) ws from rfl,
              updAll_of_not_effective he] at hm'
            exact (p5.root hm').1 (by rwa [hx0])
        · have hx : x = none := by cases x with
            | none => rfl
            | some v => exact absurd (.inl (by simp)) h0
          subst hx
          have hu : upd m k (Option.map C.H.hash none) = m :=
            upd_none_of_not_mem (fun e he h => h0 (.inr ⟨e, he, h⟩))
          have hiff : Effective m ((k, none) :: ws) ↔ Effective (upd m k (Option.map C.H.hash none)) ws := by
            rw [hu]
            constructor
            · rintro ⟨w, hw, h⟩
              rcases List.mem_cons.1 hw with rfl | hw
              · exact absurd h h0
              · exact ⟨w, hw, h⟩
            · rintro ⟨w, hw, h⟩; exact ⟨w, List.mem_cons_of_mem _ hw, h⟩
          refine ⟨fun h => h2.1 (hiff.1 h), fun h => ?_⟩
          have he := mt hiff.2 h
          rw [h2.2 he]
          rw [show updAll C.H m ((k, none) :: ws) = updAll C.H (upd m k (Option.map C.H.hash none)) ws from rfl,
            updAll_of_not_effective he] at hm'
          exact (p5.root hm').2 (by rw [hx0]; exact h0)
      rcases a9.new q hq with h | ⟨h1, h2, h3⟩
      · exact .inl h
      · rcases p5.new q h2 with h | ⟨g1, g2, g3⟩
        · left; rw [h1, h]
        · refine .inr ⟨h1.trans g1, g2, ?_⟩
          intro k' hk' hin
          simp only [List.map_cons, List.mem_cons] at hk'
          by_cases hm : k' ∈ ws.map Prod.fst
          · exact h3 k' hm hin
          · rcases hk' with rfl | hk'
            · refine g3 _ (by simp) ?_
              obtain ⟨e, he, hek⟩ := hin
              exact ⟨e, (mem_updAll_of_not_mem (by rwa [hek])).1 he, hek⟩
            · exact absurd hk' hm

/-- What committing version `V` does to the tree `(m, ver)`: the new nodes `N`, the stale keys `S`. -/
structure Delta (H : Hasher) (V : Version) (B : NodeKey → Except Err (Option Node))
    (m : List Entry) (ver : List Nibble → Version) (m' : List Entry) (ver' : List Nibble → Version)
    (N : AMap NodeKey Node) (S : List NodeKey) : Prop where
  nodup : N.NodupKeys
  staleNodup : S.Nodup
  /-- every new node is at version `V` and part of the new tree -/
  newKey : ∀ k n, N.get? k = some n → k.version = V ∧
    ((pres m' [] k.path ∧ ver' k.path = V ∧ n = canonNode H m' ver' k.path) ∨
     (k.path = [] ∧ n = canonNode H m' ver' []))
  newNode : ∀ q, pres m' [] q → ver' q = V → N.get? ⟨V, q⟩ = some (canonNode H m' ver' q)
  rootNode : N.get? ⟨V, []⟩ = some (canonNode H m' ver' [])
  /-- every other node of the new tree was there before -/
  old : ∀ q, pres m' [] q → ver' q ≠ V → pres m [] q ∧ ver' q = ver q ∧
    B ⟨ver' q, q⟩ = .ok (some (canonNode H m' ver' q))
  oldRoot : ver' [] ≠ V → B ⟨ver' [], []⟩ = .ok (some (canonNode H m' ver' [])) ∧ Old V (ver' []) ∧
    S = []
  /-- the stale keys are the nodes of the old tree that the new one does not use -/
  stale : ∀ w q, (⟨w, q⟩ : NodeKey) ∈ S ↔ pres m [] q ∧ w = ver q ∧ ¬ (pres m' [] q ∧ ver' q = w)

/-- The frozen part after one more version. -/
def Frozen.push (f : Frozen) (V : Version) (N : AMap NodeKey Node)
    (vals : AMap (Version × KeyHash) (Option Value)) (S : List NodeKey) (staleLeaves : Nat)
    (h : Digest) : Frozen :=
  { nodeBatch := { nodes := f.nodeBatch.nodes.extend N, values := f.nodeBatch.values.extend vals }
    stale := f.stale ++ (S.map (fun k => ⟨V, k⟩)).filter (fun i => decide (i ∉ f.stale))
    stats := f.stats ++ [⟨N.length, N.countP (fun e => e.2.isLeaf), S.length, staleLeaves⟩]
    rootHashes := f.rootHashes ++ [h] }

/-- The cache right after `freeze`. -/
def TreeCache.frozenAt (tc : TreeCache) (V : Version) (N : AMap NodeKey Node) (staleLeaves : Nat)
    (h : Digest) : TreeCache :=
  { rootNodeKey := tc.rootNodeKey
    nextVersion := V + 1
    nodeCache := []
    valueCache := []
    numNewLeaves := 0
    stale := []
    numStaleLeaves := 0
    frozen := tc.frozen.push V N tc.valueCache tc.stale staleLeaves h
    reader := tc.reader }

theorem freeze_of {n : Node} {tc1 tc2 : TreeCache} {h : Digest}
    (h1 : tc.freezeRoot = .ok (n, tc1)) (h2 : n.hash C.H = .ok h)
    (h3 : ({ tc1 with frozen := { tc1.frozen with rootHashes := tc1.frozen.rootHashes ++ [h] } } :
      TreeCache).freezeCopy = .ok tc2) (h4 : tc2.nextVersion + 1 < u64Size) :
    tc.freeze C.H = .ok { tc2 with
      frozen :=
        { nodeBatch :=
            { nodes := tc2.frozen.nodeBatch.nodes.extend tc2.nodeCache
              values := tc2.frozen.nodeBatch.values.extend tc2.valueCache }
          stale := tc2.frozen.stale ++ (tc2.stale.map (fun k => ⟨tc2.nextVersion, k⟩)).filter
            (fun i => decide (i ∉ tc2.frozen.stale))
          stats := tc2.frozen.stats ++
            [⟨tc2.nodeCache.length, tc2.numNewLeaves, tc2.stale.length, tc2.numStaleLeaves⟩]
          rootHashes := tc2.frozen.rootHashes }
      nodeCache := []
      valueCache := []
      stale := []
      numStaleLeaves := 0
      numNewLeaves := 0
      nextVersion := tc2.nextVersion + 1 } := by
  unfold TreeCache.freeze
  rw [h1]
  simp only [ok_bind, h2, h3, TreeCache.freezeDrain, h4, ↓reduceIte]

theorem pres_nil_iff {q} : pres m [] q ↔ under q m ≠ [] ∧ (q = [] ∨ 2 ≤ (under q.dropLast m).length) := by
  unfold pres
  simp [nil_prefix]

theorem pres_root : pres m [] [] ↔ m ≠ [] := by simp [pres]

theorem not_pres_of_nil {q} : ¬ pres ([] : List Entry) [] q := by simp [pres, under]

/-- `freeze` with nothing to copy: the cache itself is the set of new nodes. -/
theorem freeze_plain {n : Node} {h : Digest} (h1 : tc.freezeRoot = .ok (n, tc'))
    (h2 : n.hash C.H = .ok h) (hne : ¬ (0 < tc'.nextVersion ∧ tc'.nodeCache = [] ∧ tc'.stale = [])) (hsame : SameV tc tc')
    (hroot : tc'.rootNodeKey = tc.rootNodeKey) (hst : tc'.stale = tc.stale)
    (hci : CountInv C tc') (h4 : tc.nextVersion + 1 < u64Size) :
    tc.freeze C.H = .ok (tc.frozenAt tc.nextVersion tc'.nodeCache tc'.numStaleLeaves h) := by
  have h4' : tc'.nextVersion + 1 < u64Size := by rw [hsame.next]; exact h4
  rw [freeze_of (C := C) (tc2 := { tc' with frozen :=
    { tc'.frozen with rootHashes := tc'.frozen.rootHashes ++ [h] } }) h1 h2 ?_ h4']
  · unfold TreeCache.frozenAt Frozen.push
    simp only [hsame.frozen, hsame.next, hsame.vals, hsame.reader, hroot, hst, hci.newLeaves]
  · unfold TreeCache.freezeCopy
    rw [if_neg]
    exact hne

/-- `freeze` when nothing changed: the root node is copied. -/
theorem freeze_copy {n : Node} {h : Digest}
    (hg : tc.getNodeOption tc.rootNodeKey = .ok (some n))
    (h2 : n.hash C.H = .ok h) (hpos : 0 < tc.nextVersion) (hn : tc.nodeCache = []) (hs : tc.stale = [])
    (hci : CountInv C tc)
    (h4 : tc.nextVersion + 1 < u64Size) :
    tc.freeze C.H = .ok (tc.frozenAt tc.nextVersion
      [(tc.rootNodeKey.setVersion tc.nextVersion, n)] 0 h) := by
  have h1 : tc.freezeRoot = .ok (n, tc) := by
    unfold TreeCache.freezeRoot; rw [hg]; rfl
  let tc1 : TreeCache := { tc with frozen :=
    { tc.frozen with rootHashes := tc.frozen.rootHashes ++ [h] } }
  have hg1 : tc1.getNode tc.rootNodeKey = .ok n := by
    have : tc1.getNodeOption = tc.getNodeOption := rfl
    unfold TreeCache.getNode
    rw [this, hg]
  have hnl : tc.numNewLeaves = 0 := by rw [hci.newLeaves, hn]; rfl
  have hsl : tc.numStaleLeaves = 0 := by rw [hci.staleLeaves, hs]; rfl
  have hcopy : tc1.freezeCopy = .ok { tc1 with
      nodeCache := [(tc.rootNodeKey.setVersion tc.nextVersion, n)]
      numNewLeaves := if n.isLeaf then tc.numNewLeaves + 1 else tc.numNewLeaves } := by
    unfold TreeCache.freezeCopy
    rw [if_pos ⟨hpos, hn, hs⟩]
    show (tc1.getNode tc.rootNodeKey >>= _) = _
    rw [hg1, ok_bind]
    unfold TreeCache.putNode
    have : tc1.nodeCache = [] := hn
    simp only [this, AMap.get?_nil]
    rfl
  rw [freeze_of (C := C) (tc := tc) h1 h2 hcopy h4]
  unfold TreeCache.frozenAt Frozen.push
  simp only [tc1, hs, hnl, hsl, List.length_singleton, List.countP_cons, List.countP_nil]
  cases n.isLeaf <;> simp

/-- The common part of `Delta` from the cache invariant of a non-empty tree. -/
theorem delta_tree (hC : C.WF) (hs : SubInv C tc m ver []) (ci : CountInv C tc) (hne : m ≠ [])
    (hv : ver [] = C.V) :
    Delta C.H C.V C.B C.m0 C.ver0 m ver tc.nodeCache tc.stale := by
  have hnew : ∀ q, pres m [] q → ver q = C.V →
      tc.nodeCache.get? ⟨C.V, q⟩ = some (canonNode C.H m ver q) := by
    intro q hq hvq
    rcases (hs q (nil_prefix q)).stored' hC hq with ⟨-, h⟩ | ⟨h, -⟩
    · exact h
    · exact absurd hvq h
  refine ⟨ci.nodup, ci.staleNodup, ?_, hnew, hnew [] (pres_root.2 hne) hv, ?_,
    fun h => absurd hv h, ?_⟩
  · rintro ⟨w, q⟩ n hn
    obtain ⟨h1, h2, h3⟩ := (hs q (nil_prefix q)).dom w n hn
    subst h1
    refine ⟨rfl, .inl ⟨h2, h3, ?_⟩⟩
    have := hnew q h2 h3
    rw [this] at hn
    exact (Option.some.inj hn).symm
  · intro q hq hvq
    rcases (hs q (nil_prefix q)).stored' hC hq with ⟨h, -⟩ | ⟨-, h1, h2, h3⟩
    · exact absurd h hvq
    · exact ⟨h2, h3, h1⟩
  · intro w q
    exact (hs q (nil_prefix q)).stale' hC w

theorem freeze_spec (hC : C.WF) (hfresh : C.B ⟨C.V, []⟩ = .ok none ∨ (m = [] → NotDropped C tc)) (hm : NodupE m)
    (g : GInv C tc m ver) (hnv : tc.nextVersion = C.V) (hV : C.V + 1 < u64Size)
    (hroot : tc.rootNodeKey = ⟨C.V, []⟩ ∨ (0 < C.V ∧ C.B tc.rootNodeKey ≠ .ok none)) :
    ∃ N ver', tc.freeze C.H
        = .ok (tc.frozenAt C.V N (tc.stale.countP C.baseIsLeaf) (sh C.H m [])) ∧
      Delta C.H C.V C.B C.m0 C.ver0 m ver' N tc.stale ∧ tc.rootNodeKey = ⟨ver' [], []⟩ ∧
      (m ≠ [] → ver' = ver) := by
  have hV' : tc.nextVersion + 1 < u64Size := by rw [hnv]; exact hV
  by_cases hne : m = []
  · subst hne
    have hn := g.null rfl
    have hhash : Node.hash C.H .null = .ok (sh C.H [] []) := by
      rw [sh_zero C.H (by simp)]; rfl
    have hstale : ∀ w q, (⟨w, q⟩ : NodeKey) ∈ tc.stale ↔ C.pres0 q ∧ w = C.ver0 q := by
      intro w q
      by_cases hq : q = []
      · subst hq; exact hn.stale0 w
      · have := ((hn.abs q hq) [] ver).stale w
        simpa using this
    -- the new nodes are exactly a null root
    have hdelta : ∀ N : AMap NodeKey Node, N.NodupKeys → N.get? ⟨C.V, []⟩ = some .null →
        (∀ w q n, N.get? ⟨w, q⟩ = some n → w = C.V ∧ q = [] ∧ n = .null) →
        ∀ rv, (rv ≠ C.V → C.B ⟨rv, []⟩ = .ok (some .null) ∧ Old C.V rv ∧ tc.stale = []) →
        Delta C.H C.V C.B C.m0 C.ver0 [] (fun _ => rv) N tc.stale := by
      intro N h1 h2 h3 rv h4
      refine ⟨h1, g.count.staleNodup, ?_, fun q hq => absurd hq not_pres_of_nil, ?_,
        fun q hq => absurd hq not_pres_of_nil, ?_, ?_⟩
      · rintro ⟨w, q⟩ n hw
        obtain ⟨a, b, c⟩ := h3 w q n hw
        exact ⟨a, .inr ⟨b, by rw [c, canonNode_nil (by simp)]⟩⟩
      · rw [h2, canonNode_nil (by simp)]
      · intro h
        rw [canonNode_nil (by simp)]; exact h4 h
      · intro w q
        rw [hstale]
        constructor
        · rintro ⟨a, b⟩; exact ⟨a, b, fun h => absurd h.1 not_pres_of_nil⟩
        · rintro ⟨a, b, -⟩; exact ⟨a, b⟩
    have hothers : ∀ w q n, tc.nodeCache.get? ⟨w, q⟩ = some n → q = [] := by
      intro w q n hw
      apply Decidable.byContradiction
      intro hq
      exact absurd (((hn.abs q hq) [] ver).dom w n hw).2.1 (by simp)
    rcases hn.root with ⟨h1, h2, h3⟩ | ⟨h1, h2⟩ | ⟨h1, h2, h3, h4, h5⟩
    · -- a null node in the cache
      refine ⟨tc.nodeCache, fun _ => C.V, ?_, ?_, h1, fun h => absurd rfl h⟩
      · rw [← hnv, ← g.count.staleLeaves]
        refine freeze_plain (n := .null) (tc' := tc) ?_ hhash ?_ (SameV.refl _) rfl rfl g.count hV'
        · unfold TreeCache.freezeRoot TreeCache.getNodeOption
          rw [h1, h2]; rfl
        · rintro ⟨-, h, -⟩; rw [h] at h2; simp at h2
      · refine hdelta _ g.count.nodup h2 ?_ _ (fun h => absurd rfl h)
        intro w q n hw
        have hq := hothers w q n hw
        subst hq
        by_cases hwV : w = C.V
        · subst hwV; rw [h2] at hw; exact ⟨rfl, rfl, (Option.some.inj hw).symm⟩
        · rw [h3 w hwV] at hw; simp at hw
    · -- the null node was dropped from the cache; `freeze` puts it back
      have hput : tc.putNode ⟨C.V, []⟩ .null
          = .ok { tc with nodeCache := tc.nodeCache.insert ⟨C.V, []⟩ .null } := by
        unfold TreeCache.putNode
        rw [h2]; simp [Node.isLeaf]
      have hci : CountInv C { tc with nodeCache := tc.nodeCache.insert ⟨C.V, []⟩ .null } := by
        refine ⟨g.count.nodup.insert _ _, g.count.staleNodup, ?_, g.count.staleLeaves⟩
        show tc.numNewLeaves = _
        rw [AMap.insert_of_none (h2 _), List.countP_cons, g.count.newLeaves]
        simp [Node.isLeaf]
      refine ⟨tc.nodeCache.insert ⟨C.V, []⟩ .null, fun _ => C.V, ?_, ?_, h1, fun h => absurd rfl h⟩
      · rw [← hnv, ← g.count.staleLeaves, hnv]
        have := freeze_plain (C := C) (n := .null) (h := sh C.H [] [])
          (tc := tc) (tc' := { tc with nodeCache := tc.nodeCache.insert ⟨C.V, []⟩ .null })
          ?_ hhash ?_ ⟨rfl, rfl, rfl, rfl⟩ rfl rfl hci hV'
        · rw [hnv] at this; exact this
        · unfold TreeCache.freezeRoot TreeCache.getNodeOption
          rw [h1, h2]
          show ((tc.base ⟨C.V, []⟩) >>= _) = _
          rw [g.base, hfresh.resolve_right (fun h => h rfl h1 (h2 _))]
          show (tc.putNode ⟨C.V, []⟩ .null >>= _) = _
          rw [hput, ok_bind, ← h1]
        · simp [AMap.insert]
      · refine hdelta _ (g.count.nodup.insert _ _) (by simp) ?_ _ (fun h => absurd rfl h)
        intro w q n hw
        rw [AMap.get?_insert] at hw
        split at hw
        · rename_i he; cases he; exact ⟨rfl, rfl, (Option.some.inj hw).symm⟩
        · have hq := hothers w q n hw
          subst hq
          rw [h2] at hw; simp at hw
    · -- an old null root
      have h5' : C.B ⟨C.rv, []⟩ = .ok (some .null) := by
        rcases h5 with h | h
        · exact h
        · rcases hroot with hr | ⟨-, hr⟩
          · rw [h2] at hr; exact absurd (congrArg NodeKey.version hr) h1.1
          · rw [h2] at hr; exact absurd h hr
      have hpos : 0 < C.V := by
        rcases hroot with hr | ⟨hr, -⟩
        · rw [h2] at hr; exact absurd (congrArg NodeKey.version hr) h1.1
        · exact hr
      refine ⟨[(⟨C.V, []⟩, .null)], fun _ => C.rv, ?_, ?_, h2, fun h => absurd rfl h⟩
      · have := freeze_copy (C := C) (tc := tc) (n := .null) (h := sh C.H [] []) ?_ hhash
          (by rw [hnv]; exact hpos) h3 h4 g.count hV'
        · rw [this, h2, hnv, h4]; rfl
        · unfold TreeCache.getNodeOption
          rw [h2, h3]; simp only [AMap.get?_nil]; rw [g.base, h5']
      · refine hdelta _ (by simp [AMap.NodupKeys]) (by simp [AMap.get?]) ?_ _
          (fun _ => ⟨h5', h1, h4⟩)
        intro w q n hw
        simp only [AMap.get?] at hw
        split at hw
        · rename_i he; cases he; exact ⟨rfl, rfl, (Option.some.inj hw).symm⟩
        · simp at hw
  · obtain ⟨hs, hrk, hcl⟩ := g.tree hne
    have hpr : pres m [] [] := pres_root.2 hne
    have hget := (hs [] (nil_prefix _)).get hpr g.base
    have hhash : (canonNode C.H m ver []).hash C.H = .ok (sh C.H m []) := canonNode_hash hm
    by_cases hv : ver [] = C.V
    · refine ⟨tc.nodeCache, ver, ?_, delta_tree hC hs g.count hne hv, hrk, fun _ => rfl⟩
      rw [← hnv, ← g.count.staleLeaves]
      refine freeze_plain (n := canonNode C.H m ver []) (tc' := tc) ?_ hhash ?_ (SameV.refl _) rfl rfl
        g.count hV'
      · unfold TreeCache.freezeRoot
        rw [hrk, hget]; rfl
      · rintro ⟨-, h, -⟩
        rcases (hs [] (nil_prefix _)).stored' hC hpr with ⟨-, h'⟩ | ⟨h', -⟩
        · rw [h] at h'; simp at h'
        · exact h' hv
    · obtain ⟨hn0, hs0⟩ := hcl.resolve_left hv
      have hold : ∀ q, pres m [] q → C.B ⟨ver q, q⟩ = .ok (some (canonNode C.H m ver q)) ∧
          C.pres0 q ∧ ver q = C.ver0 q := by
        intro q hq
        rcases (hs q (nil_prefix q)).stored' hC hq with ⟨-, h⟩ | ⟨-, h⟩
        · rw [hn0] at h; simp at h
        · exact h
      have hpos : 0 < C.V := by
        rcases hroot with hr | ⟨hr, -⟩
        · rw [hrk] at hr; exact absurd (congrArg NodeKey.version hr) hv
        · exact hr
      refine ⟨[(⟨C.V, []⟩, canonNode C.H m ver [])], ver, ?_, ?_, hrk, fun _ => rfl⟩
      · have := freeze_copy (C := C) (tc := tc) (by rw [hrk]; exact hget) hhash
          (by rw [hnv]; exact hpos) hn0 hs0 g.count hV'
        rw [this, hrk, hnv, hs0]; rfl
      · have hlt : ∀ q, pres m [] q → ver q ≠ C.V := by
          intro q hq h
          obtain ⟨-, h1, h2⟩ := hold q hq
          exact (hC q h1).1 (by rw [← h2, h])
        refine ⟨by simp [AMap.NodupKeys], g.count.staleNodup, ?_, fun q hq h => absurd h (hlt q hq),
          by simp [AMap.get?], fun q hq _ => ⟨(hold q hq).2.1, (hold q hq).2.2, (hold q hq).1⟩, ?_, ?_⟩
        · rintro ⟨w, q⟩ n hw
          simp only [AMap.get?] at hw
          split at hw
          · rename_i he; cases he; exact ⟨rfl, .inr ⟨rfl, (Option.some.inj hw).symm⟩⟩
          · simp at hw
        · intro _
          obtain ⟨h1, h2, h3⟩ := hold [] hpr
          exact ⟨h1, by rw [h3]; exact hC _ h2, hs0⟩
        · intro w q
          exact (hs q (nil_prefix q)).stale' hC w

end
end Jmt
