import Verif.Proofs.LastWrite
/-!
# Several value sets: `put_value_sets`
-/
namespace Jmt
open Spec (Entry)

abbrev NodeBase := NodeKey → Except Err (Option Node)

/-- Nodes `N` on top of `B`. -/
def over (N : AMap NodeKey Node) (B : NodeBase) : NodeBase := fun k =>
  match N.get? k with
  | some n => .ok (some n)
  | none => B k

/-- The context of the version about to be built by a drained cache. -/
def TreeCache.ctx (H : Hasher) (tc : TreeCache) (V : Version) (m : List Entry)
    (ver : List Nibble → Version) : Ctx := ⟨H, V, tc.base, m, ver, tc.rootNodeKey.version⟩

/-- A cache ready to build version `V` on top of the tree of `m`.  `F` says that the store holds no root of version `V` or
later. -/
structure StartW (F : Prop) (H : Hasher) (tc : TreeCache) (V : Version) (m : List Entry)
    (ver : List Nibble → Version) : Prop where
  nodup : NodupE m
  next : tc.nextVersion = V
  lt : V < preGenesisVersion
  vals : tc.valueCache = []
  wf : (tc.ctx H V m ver).WF
  fresh : F → ∀ w, V ≤ w → w < preGenesisVersion → tc.base ⟨w, []⟩ = .ok none
  ginv : GInv (tc.ctx H V m ver) tc m ver
  zero : V = 0 → m = [] ∧ tc.rootNodeKey.version = 0 ∧ tc.nodeCache.get? ⟨0, []⟩ = some .null
  root : 0 < V → tc.base tc.rootNodeKey ≠ .ok none
  dropped : m = [] → NotDropped (tc.ctx H V m ver) tc

abbrev Start := StartW True

/-- The part of `StartW` that does not say where the root comes from (it may be the pre-genesis one). -/
structure StartG (F : Prop) (H : Hasher) (tc : TreeCache) (V : Version) (m : List Entry)
    (ver : List Nibble → Version) : Prop where
  nodup : NodupE m
  next : tc.nextVersion = V
  lt : V < preGenesisVersion
  vals : tc.valueCache = []
  wf : (tc.ctx H V m ver).WF
  fresh : F → ∀ w, V ≤ w → w < preGenesisVersion → tc.base ⟨w, []⟩ = .ok none
  ginv : GInv (tc.ctx H V m ver) tc m ver
  dropped : m = [] → NotDropped (tc.ctx H V m ver) tc

theorem StartW.toG {F H tc V m ver} (st : StartW F H tc V m ver) : StartG F H tc V m ver :=
  ⟨st.nodup, st.next, st.lt, st.vals, st.wf, st.fresh, st.ginv, st.dropped⟩

/-- The tree of `m` is readable in `B` from version `v`. -/
structure TreeAt (H : Hasher) (B : NodeBase) (v : Version) (m : List Entry)
    (ver : List Nibble → Version) : Prop where
  root : B ⟨v, []⟩ = .ok (some (canonNode H m ver []))
  node : ∀ q, q ≠ [] → pres m [] q → B ⟨ver q, q⟩ = .ok (some (canonNode H m ver q))

theorem base_frozenAt {tc : TreeCache} {V N sl h} (hn : AMap.NodupKeys N) :
    (tc.frozenAt V N sl h).base = over N tc.base := by
  funext k
  unfold TreeCache.base TreeCache.frozenAt Frozen.push over
  simp only [AMap.get?_extend _ hn]
  cases N.get? k <;> rfl

section
variable {F : Prop} {H : Hasher} {tc : TreeCache} {V : Version} {m : List Entry} {ver : List Nibble → Version}

/-- Versions in use after committing `V`. -/
theorem Delta.ver_old {B m' ver' N S} (d : Delta H V B m ver m' ver' N S)
    (hwf : ∀ q, pres m [] q → Old V (ver q)) (q) (hq : pres m' [] q) : ver' q = V ∨ Old V (ver' q) := by
  by_cases h : ver' q = V
  · exact .inl h
  · obtain ⟨h1, h2, -⟩ := d.old q hq h
    rw [h2]; exact .inr (hwf q h1)

theorem Delta.holds {B m' ver' N S} (d : Delta H V B m ver m' ver' N S)
    (hwf : ∀ q, pres m [] q → Old V (ver q)) (q) (hq : pres m' [] q) :
    over N B ⟨ver' q, q⟩ = .ok (some (canonNode H m' ver' q)) := by
  unfold over
  by_cases h : ver' q = V
  · rw [h, d.newNode q hq h]
  · obtain ⟨h1, h2, h3⟩ := d.old q hq h
    cases hg : N.get? ⟨ver' q, q⟩ with
    | none => exact h3
    | some n => exact absurd (d.newKey _ _ hg).1 h

theorem Delta.treeAt {B m' ver' N S} (d : Delta H V B m ver m' ver' N S)
    (hwf : ∀ q, pres m [] q → Old V (ver q)) : TreeAt H (over N B) V m' ver' := by
  refine ⟨?_, fun q _ hq => d.holds hwf q hq⟩
  unfold over; rw [d.rootNode]

/-- A drained cache above a complete tree satisfies the cache invariant. -/
theorem ginv_drained {C : Ctx} (hb : tc.base = C.B) (hn : tc.nodeCache = [])
    (hs : tc.stale = []) (h1 : tc.numNewLeaves = 0) (h2 : tc.numStaleLeaves = 0)
    (hholds : ∀ q, C.pres0 q → C.B ⟨C.ver0 q, q⟩ = .ok (some (canonNode C.H C.m0 C.ver0 q)))
    (hroot : C.m0 ≠ [] → tc.rootNodeKey = ⟨C.ver0 [], []⟩)
    (hnull : C.m0 = [] → Old C.V C.rv ∧ tc.rootNodeKey = ⟨C.rv, []⟩ ∧
      (C.B ⟨C.rv, []⟩ = .ok (some .null) ∨ C.B ⟨C.rv, []⟩ = .ok none)) :
    GInv C tc C.m0 C.ver0 := by
  have hP : ∀ q, PInv C tc C.m0 C.ver0 q (pres C.m0 [] q) := by
    intro q
    refine ⟨fun hq => .inr ⟨by rw [hn]; rfl, hholds q hq, hq, rfl⟩, fun w n hw => ?_, fun w => ?_⟩
    · rw [hn] at hw; simp at hw
    · rw [hs]
      constructor
      · intro h; simp at h
      · rintro ⟨a, b, c⟩; exact absurd ⟨a, b.symm, by rw [hn]; rfl⟩ c
  refine ⟨fun hne => ⟨fun q _ => hP q, hroot hne, .inr ⟨hn, hs⟩⟩, fun hm => ?_, ?_, hb⟩
  · obtain ⟨a, b, c⟩ := hnull hm
    have hno : ∀ q, ¬ pres C.m0 [] q := by intro q; rw [hm]; exact not_pres_of_nil
    refine ⟨fun q _ => (hP q).toAbsent (hno q), fun w => ?_, .inr (.inr ⟨a, b, hn, hs, c⟩)⟩
    rw [hs]
    constructor
    · intro h; simp at h
    · rintro ⟨h, -⟩; exact absurd h (hno _)
  · exact ⟨by rw [hn]; exact AMap.nodupKeys_nil, by rw [hs]; exact List.nodup_nil,
      by rw [hn, h1]; rfl, by rw [hs, h2]; rfl⟩

/-- `freeze` after the writes of one version, from a ready cache to a ready cache. -/
theorem freeze_stepG (st : StartG F H tc V m ver) {tc1 : TreeCache} {m' : List Entry} {ver1 : List Nibble → Version}
    {ks : List KeyHash} {ins eff : Prop} {ren : List Nibble → Prop} (hm' : NodupE m') (a2 : GInv (tc.ctx H V m ver) tc1 m' ver1)
    (a6 : tc1.nextVersion = tc.nextVersion) (a7 : tc1.frozen = tc.frozen) (a8 : tc1.reader = tc.reader)
    (a9 : Fresh V m ver m' ver1 ks ins eff ren)
    (hfresh : tc.base ⟨V, []⟩ = .ok none ∨ (m' = [] → NotDropped (tc.ctx H V m ver) tc1))
    (hroot : tc1.rootNodeKey = ⟨V, []⟩ ∨ (0 < V ∧ tc.base tc1.rootNodeKey ≠ .ok none)) :
    ∃ tc' N S ver' sl, tc1.freeze H = .ok tc' ∧
      Delta H V tc.base m ver m' ver' N S ∧
      sl = S.countP (tc.ctx H V m ver).baseIsLeaf ∧
      tc'.frozen = tc.frozen.push V N tc1.valueCache S sl (sh H m' []) ∧
      tc'.base = over N tc.base ∧ tc'.reader = tc.reader ∧
      Fresh V m ver m' ver' ks ins eff ren ∧
      (V + 1 < preGenesisVersion → StartW F H tc' (V + 1) m' ver') := by
  have hV : V + 1 < u64Size := by have := st.lt; unfold preGenesisVersion at this; omega
  obtain ⟨N, ver', c1, c2, c3, c4⟩ := freeze_spec st.wf hfresh hm' a2 (a6.trans st.next) hV hroot
  have c1' : tc1.freeze H = .ok (tc1.frozenAt V N (tc1.stale.countP (tc.ctx H V m ver).baseIsLeaf)
    (sh H (m') [])) := c1
  have c2 : Delta H V tc.base m ver (m') ver' N tc1.stale := c2
  clear c1
  have hbase1 : tc1.base = tc.base := by funext k; simp [TreeCache.base, a7, a8]
  refine ⟨tc1.frozenAt V N (tc1.stale.countP (tc.ctx H V m ver).baseIsLeaf)
    (sh H (m') []), N, tc1.stale, ver', _, c1', c2, rfl, ?_, ?_, ?_, ?_, ?_⟩
  · show tc1.frozen.push _ _ tc1.valueCache _ _ _ = _
    rw [a7]
  · rw [base_frozenAt c2.nodup, hbase1]
  · exact a8
  · have hne : ∀ q, pres m' [] q → m' ≠ [] := by
      intro q hq h; rw [h] at hq; exact not_pres_of_nil hq
    refine ⟨fun q hq => ?_, fun q hq => ?_, fun hins q h1 hq => ?_, fun h => ?_, fun q hq => ?_⟩
    · rw [c4 (hne q hq)]; exact a9.new q hq
    · rw [c4 (hne q hq)]; exact a9.near q hq
    · rw [c4 (hne q hq)]; exact a9.keep hins q h1 hq
    · rw [c4 h]; exact a9.root h
    · rw [c4 (hne q hq)]; exact a9.exact q hq
  · intro hlt
    have hwf : ∀ q, pres m [] q → Old V (ver q) := st.wf
    have hb' := base_frozenAt (tc := tc1) (V := V) (sl := tc1.stale.countP (tc.ctx H V m ver).baseIsLeaf)
      (h := sh H (m') []) c2.nodup
    rw [hbase1] at hb'
    have hold : ∀ w, (w = V ∨ Old V w) → Old (V + 1) w := by
      rintro w (rfl | ⟨h1, h2 | h2⟩)
      · exact ⟨by omega, .inl (by omega)⟩
      · exact ⟨by omega, .inl (by omega)⟩
      · exact ⟨by omega, .inr h2⟩
    have hroot' : over N tc.base ⟨ver' [], []⟩ = .ok (some (canonNode H (m') ver' [])) := by
      unfold over
      by_cases h : ver' [] = V
      · have := c2.rootNode
        rw [h]
        show (match N.get? ⟨V, []⟩ with | some n => _ | none => _) = _
        rw [show N.get? ⟨V, []⟩ = _ from c2.rootNode]
      · cases hg : N.get? ⟨ver' [], []⟩ with
        | none => exact (c2.oldRoot h).1
        | some n => exact absurd (c2.newKey _ _ hg).1 h
    have hrold : Old (V + 1) (ver' []) := by
      apply hold
      by_cases h : ver' [] = V
      · exact .inl h
      · exact .inr (c2.oldRoot h).2.1
    refine ⟨hm', rfl, hlt, rfl, ?_, ?_, ?_, fun h => by omega, fun _ => ?_, fun _ hr => ?_⟩
    · intro q hq
      exact hold _ (c2.ver_old hwf q hq)
    · intro hF w h1 h2
      rw [c1_base_eq hb']
      unfold over
      cases hg : N.get? ⟨w, []⟩ with
      | none => exact st.fresh hF w (by omega) h2
      | some n =>
        have h3 : w = V := (c2.newKey _ _ hg).1
        omega
    · refine ginv_drained (C := TreeCache.ctx H (tc1.frozenAt V N (tc1.stale.countP (tc.ctx H V m ver).baseIsLeaf)
        (sh H (m') [])) (V + 1) (m') ver') rfl rfl rfl rfl rfl ?_ ?_ ?_
      · intro q hq
        show TreeCache.base _ _ = _
        rw [hb']
        exact c2.holds hwf q hq
      · intro _; exact c3
      · intro hnil
        have h4 : tc1.rootNodeKey.version = ver' [] := by rw [c3]
        refine ⟨?_, ?_, .inl ?_⟩
        · show Old (V + 1) tc1.rootNodeKey.version
          rw [h4]; exact hrold
        · show tc1.rootNodeKey = ⟨tc1.rootNodeKey.version, []⟩
          rw [h4]; exact c3
        · show TreeCache.base _ ⟨tc1.rootNodeKey.version, []⟩ = _
          rw [hb', h4, hroot']
          have h5 : m' = [] := hnil
          rw [h5, canonNode_nil (by simp)]
    · show TreeCache.base _ tc1.rootNodeKey ≠ _
      rw [hb', c3, hroot']; simp
    · have h4 : tc1.rootNodeKey = ⟨V + 1, []⟩ := hr
      rw [c3] at h4
      exact absurd (congrArg NodeKey.version h4) hrold.1
where
  c1_base_eq {tc' : TreeCache} {N B} (h : tc'.base = over N B) {k} : tc'.base k = over N B k := by rw [h]


/-- The same when the root of the previous version is where it should be. -/
theorem freeze_step (st : StartW F H tc V m ver) {tc1 : TreeCache} {m' : List Entry} {ver1 : List Nibble → Version}
    {ks : List KeyHash} {ins eff : Prop} {ren : List Nibble → Prop} (hm' : NodupE m') (a2 : GInv (tc.ctx H V m ver) tc1 m' ver1)
    (a6 : tc1.nextVersion = tc.nextVersion) (a7 : tc1.frozen = tc.frozen) (a8 : tc1.reader = tc.reader)
    (a9 : Fresh V m ver m' ver1 ks ins eff ren)
    (hfresh : tc.base ⟨V, []⟩ = .ok none ∨ (m' = [] → NotDropped (tc.ctx H V m ver) tc1)) :
    ∃ tc' N S ver' sl, tc1.freeze H = .ok tc' ∧
      Delta H V tc.base m ver m' ver' N S ∧
      sl = S.countP (tc.ctx H V m ver).baseIsLeaf ∧
      tc'.frozen = tc.frozen.push V N tc1.valueCache S sl (sh H m' []) ∧
      tc'.base = over N tc.base ∧ tc'.reader = tc.reader ∧
      Fresh V m ver m' ver' ks ins eff ren ∧
      (V + 1 < preGenesisVersion → StartW F H tc' (V + 1) m' ver') := by
  -- where the root is after the writes
  have hroot : tc1.rootNodeKey = ⟨V, []⟩ ∨ (0 < V ∧ tc.base tc1.rootNodeKey ≠ .ok none) := by
    by_cases hne : m' = []
    · have hn := a2.null hne
      rcases hn.root with ⟨h1, -⟩ | ⟨h1, -⟩ | ⟨h1, h2, h3, h4, h5⟩
      · exact .inl h1
      · exact .inl h1
      · right
        have hpos : 0 < V := by
          apply Nat.pos_of_ne_zero
          intro h0
          have h6 := (st.zero h0).2.1
          have h7 : Old V tc.rootNodeKey.version := h1
          exact h7.1 (by rw [h6, h0])
        refine ⟨hpos, ?_⟩
        have h8 : tc.rootNodeKey = ⟨tc.rootNodeKey.version, []⟩ := by
          by_cases hmm : m = []
          · rcases (st.ginv.null hmm).root with ⟨h, -⟩ | ⟨h, -⟩ | ⟨-, h, -⟩ <;> rw [h]
          · rw [(st.ginv.tree hmm).2.1]
        have h9 : tc1.rootNodeKey = tc.rootNodeKey := h2.trans h8.symm
        rw [h9]; exact st.root hpos
    · obtain ⟨b1, b2, b3⟩ := a2.tree hne
      rcases (b1 [] (nil_prefix _)).stored (pres_root.2 hne) with ⟨h, -⟩ | ⟨h, h1, h2, h3⟩
      · left; rw [b2, h]; rfl
      · right
        constructor
        · apply Nat.pos_of_ne_zero
          intro h0
          have := (st.zero h0).1
          have h4 : pres m [] [] := h2
          rw [this] at h4
          exact not_pres_of_nil h4
        · rw [b2]
          have h1' : tc.base ⟨ver1 [], []⟩ = _ := h1
          rw [h1']; simp
  exact freeze_stepG st.toG hm' a2 a6 a7 a8 a9 hfresh hroot

/-- One value set, from a ready cache to a ready cache. -/
theorem step_spec (st : StartW F H tc V m ver) (wp : Bool) (ws : ValueSet) (hsafe : F ∨ SafeDel H m ws) :
    ∃ ps tc1 tc' N S ver' sl, putAll H V wp ws tc = .ok (ps, tc1) ∧ tc1.freeze H = .ok tc' ∧
      (wp = true → ProofsFor H m ws ps) ∧
      Delta H V tc.base m ver (updAll H m ws) ver' N S ∧
      sl = S.countP (tc.ctx H V m ver).baseIsLeaf ∧
      tc'.frozen = tc.frozen.push V N (valAll V [] ws) S sl (sh H (updAll H m ws) []) ∧
      tc'.base = over N tc.base ∧ tc'.reader = tc.reader ∧
      Fresh V m ver (updAll H m ws) ver' (ws.map Prod.fst) (∀ w ∈ ws, w.2 ≠ none) (Effective m ws)
        (Renewed H m ws) ∧
      (V + 1 < preGenesisVersion → StartW F H tc' (V + 1) (updAll H m ws) ver') := by
  obtain ⟨ps, tc1, ver1, a1, a2, a3, a4, a5, a6, a7, a8, a9, a10⟩ :=
    putAll_spec wp ws m ver tc (hsafe.imp (fun h => st.fresh h V (Nat.le_refl _) st.lt) (fun h => ⟨h, st.dropped⟩))
      st.nodup st.ginv
  obtain ⟨tc', N, S, ver', sl, c1, c2, c3, c4, c5⟩ := freeze_step st (st.nodup.updAll ws) a2 a6 a7 a8 a9
    (a10.imp id And.right)
  rw [a5, st.vals] at c4
  exact ⟨ps, tc1, tc', N, S, ver', sl, a1, c1, a3, c2, c3, c4, c5⟩

end
end Jmt
