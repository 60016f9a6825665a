import Verif.Proofs.Commit
/-!
# `put_value_sets` as a sequence of committed versions
-/
namespace Jmt
open Spec (Entry)

/-- Is the node stored in `B` under `k` a leaf? -/
def leafIn (B : NodeBase) (k : NodeKey) : Bool :=
  match B k with
  | .ok (some n) => n.isLeaf
  | _ => false

/-- What one committed version consists of. -/
structure StepInfo where
  ws : ValueSet
  vc : AMap (Version × KeyHash) (Option Value)
  ver : List Nibble → Version
  N : AMap NodeKey Node
  S : List NodeKey

/-- Versions `V, V+1, ..` built on top of the tree of `m` in `B`. -/
inductive Run (H : Hasher) : Version → NodeBase → List Entry → (List Nibble → Version) →
    List StepInfo → Prop
  | nil {V B m ver} : Run H V B m ver []
  | cons {V B m ver} {i : StepInfo} {rest : List StepInfo} :
      Delta H V B m ver (updAll H m i.ws) i.ver i.N i.S →
      Run H (V + 1) (over i.N B) (updAll H m i.ws) i.ver rest →
      Fresh V m ver (updAll H m i.ws) i.ver (i.ws.map Prod.fst) (∀ w ∈ i.ws, w.2 ≠ none) (Effective m i.ws) (Renewed H m i.ws) → ValsOk V i.ws i.vc → Run H V B m ver (i :: rest)

/-- The frozen part accumulated by a run. -/
def pushAll (H : Hasher) : Version → NodeBase → List Entry → Frozen → List StepInfo → Frozen
  | _, _, _, f, [] => f
  | V, B, m, f, i :: rest =>
    pushAll H (V + 1) (over i.N B) (updAll H m i.ws)
      (f.push V i.N i.vc i.S (i.S.countP (leafIn B)) (sh H (updAll H m i.ws) [])) rest

/-- Proof lists, one per value set. -/
inductive ProofSets (H : Hasher) : List Entry → List ValueSet → List (List SMProof) → Prop
  | nil (m) : ProofSets H m [] []
  | cons {m ws ps rest pss} : ProofsFor H m ws ps → ProofSets H (updAll H m ws) rest pss →
      ProofSets H m (ws :: rest) (ps :: pss)

/-- `SafeDel` for consecutive value sets. -/
def SafeSets (H : Hasher) : List Entry → List ValueSet → Prop
  | _, [] => True
  | m, ws :: rest => SafeDel H m ws ∧ SafeSets H (updAll H m ws) rest

section
variable {F : Prop} {H : Hasher}

theorem putSets_spec (wp : Bool) : ∀ (sets : List ValueSet) (tc : TreeCache) (V : Nat)
    (m : List Entry) (ver : List Nibble → Version), (sets ≠ [] → StartW F H tc V m ver) → F ∨ SafeSets H m sets →
    V + sets.length ≤ preGenesisVersion →
    ∃ pss tc' infos, putSets H wp V sets tc = .ok (pss, tc') ∧ infos.map StepInfo.ws = sets ∧
      Run H V tc.base m ver infos ∧ tc'.frozen = pushAll H V tc.base m tc.frozen infos ∧
      (wp = true → ProofSets H m sets pss) ∧ (pss.length = sets.length) := by
  intro sets
  induction sets with
  | nil =>
    intro tc V m ver _ _ _
    exact ⟨[], tc, [], rfl, rfl, .nil, rfl, fun _ => .nil m, rfl⟩
  | cons ws rest ih =>
    intro tc V m ver st hsafe hle
    obtain ⟨ps, tc1, tc2, N, S, ver', sl, a1, a2, a3, a4, a5, a6, a7, a8, a10, a9⟩ :=
      step_spec (st (by simp)) wp ws (hsafe.imp id And.left)
    simp only [List.length_cons] at hle
    obtain ⟨pss, tc3, infos, b1, b2, b3, b4, b5, b6⟩ := ih tc2 (V + 1) (updAll H m ws) ver'
      (fun hne => a9 (by have := List.length_pos_iff.2 hne; omega)) (hsafe.imp id And.right) (by omega)
    refine ⟨ps :: pss, tc3, ⟨ws, valAll V [] ws, ver', N, S⟩ :: infos, ?_, by simp [b2], ?_, ?_, ?_, by simp [b6]⟩
    · unfold putSets
      simp only [a1, ok_bind, a2, b1]
    · rw [a7] at b3
      exact .cons a4 b3 a10 (valAll_ok V ws)
    · rw [b4, a7, a6, a5]; rfl
    · intro h; exact .cons (a3 h) (b5 h)

theorem new_base {R : Reader} {V : Nat} {tc : TreeCache} (h : TreeCache.new R V = .ok tc) :
    tc.base = R.getNodeOption ∧ tc.frozen = Frozen.empty ∧ tc.reader = R := by
  unfold TreeCache.new at h
  split at h
  · cases hp : R.getNodeOption (NodeKey.root preGenesisVersion) with
    | error e => simp [hp, bind, Except.bind] at h
    | ok o =>
      rw [hp] at h
      cases o <;> cases h <;> exact ⟨rfl, rfl, rfl⟩
  · cases h; exact ⟨rfl, rfl, rfl⟩

/-- A reader on which version `V` can be built: it serves the tree of `m` at `V - 1` (or nothing
when `V = 0`) and, if `F`, nothing at `V` or later. -/
structure ReadyW (F : Prop) (H : Hasher) (B : NodeBase) (V : Version) (m : List Entry)
    (ver : List Nibble → Version) : Prop where
  nodup : NodupE m
  zero : V = 0 → m = [] ∧ B ⟨preGenesisVersion, []⟩ = .ok none
  tree : 0 < V → TreeAt H B (V - 1) m ver
  old : ∀ q, q ≠ [] → pres m [] q → Old V (ver q)
  root : ver [] = V - 1
  fresh : F → ∀ w, V ≤ w → w < preGenesisVersion → B ⟨w, []⟩ = .ok none

abbrev Ready := ReadyW True

theorem new_start {R : Reader} {V : Nat} {m ver} (hr : ReadyW F H R.getNodeOption V m ver)
    (hlt : V < preGenesisVersion) :
    ∃ tc, TreeCache.new R V = .ok tc ∧ StartW F H tc V m ver := by
  by_cases h0 : V = 0
  · obtain ⟨hm, hpre⟩ := hr.zero h0
    subst h0 hm
    refine ⟨⟨NodeKey.root 0, 0, AMap.insert [] (NodeKey.root 0) .null, [], 0, [], 0,
        Frozen.empty, R⟩, ?_, ?_⟩
    · unfold TreeCache.new
      simp only [↓reduceIte, NodeKey.root, hpre, ok_bind]
    · have hbase : TreeCache.base ⟨NodeKey.root 0, 0, AMap.insert [] (NodeKey.root 0) .null, [], 0, [], 0,
        Frozen.empty, R⟩ = R.getNodeOption := by funext k; rfl
      refine ⟨hr.nodup, rfl, hlt, rfl, ?_, ?_, ?_, fun _ => ⟨rfl, rfl, rfl⟩, fun h => absurd h (by simp), fun _ _ => ?_⟩
      · intro q hq; exact absurd hq not_pres_of_nil
      · intro hF w h1 h2; rw [hbase]; exact hr.fresh hF w h1 h2
      · refine ⟨fun h => absurd rfl h, fun _ => ?_, ?_, hbase⟩
        · refine ⟨fun q hq => ?_, fun w => ?_, .inl ⟨rfl, ?_, ?_⟩⟩
          · intro m' ver''
            refine ⟨fun h => absurd h id, fun w n hw => ?_, fun w => ?_⟩
            · exfalso
              revert hw
              show AMap.get? (AMap.insert [] (NodeKey.root 0) Node.null) _ = _ → _
              rw [AMap.get?_insert]
              split
              · next h => intro _; exact hq (by have := congrArg NodeKey.path h; exact this.symm)
              · simp
            · constructor
              · intro h; simp at h
              · rintro ⟨h, -⟩; exact absurd h not_pres_of_nil
          · constructor
            · intro h; simp at h
            · rintro ⟨h, -⟩; exact absurd h not_pres_of_nil
          · show AMap.get? (AMap.insert [] (NodeKey.root 0) Node.null) _ = _
            rw [AMap.get?_insert]; exact if_pos rfl
          · intro w hw
            show AMap.get? (AMap.insert [] (NodeKey.root 0) Node.null) _ = _
            rw [AMap.get?_insert, if_neg]; · rfl
            intro h; exact hw (congrArg NodeKey.version h).symm
        · exact ⟨AMap.NodupKeys.insert AMap.nodupKeys_nil _ _, List.nodup_nil, rfl, rfl⟩
      · show AMap.get? (AMap.insert [] (NodeKey.root 0) Node.null) _ ≠ _
        rw [show (⟨(TreeCache.ctx H _ 0 [] ver).V, []⟩ : NodeKey) = NodeKey.root 0 from rfl, AMap.get?_insert, if_pos rfl]; simp
  · have hpos : 0 < V := Nat.pos_of_ne_zero h0
    have ht := hr.tree hpos
    refine ⟨⟨NodeKey.root (V - 1), V, [], [], 0, [], 0, Frozen.empty, R⟩, ?_, ?_⟩
    · unfold TreeCache.new
      rw [if_neg h0]
    · have hbase : TreeCache.base ⟨NodeKey.root (V - 1), V, [], [], 0, [], 0, Frozen.empty, R⟩
        = R.getNodeOption := by funext k; rfl
      have hold : ∀ q, pres m [] q → Old V (ver q) := by
        intro q hq
        by_cases h : q = []
        · subst h; rw [hr.root]; exact ⟨by omega, .inl (by omega)⟩
        · exact hr.old q h hq
      have hhold : ∀ q, pres m [] q → R.getNodeOption ⟨ver q, q⟩ = .ok (some (canonNode H m ver q)) := by
        intro q hq
        by_cases h : q = []
        · subst h; rw [hr.root]; exact ht.root
        · exact ht.node q h hq
      refine ⟨hr.nodup, rfl, hlt, rfl, hold, ?_, ?_, fun h => absurd h h0, fun _ => ?_, fun _ h => ?_⟩
      · intro hF w h1 h2; rw [hbase]; exact hr.fresh hF w h1 h2
      · refine ginv_drained (C := TreeCache.ctx H
          ⟨NodeKey.root (V - 1), V, [], [], 0, [], 0, Frozen.empty, R⟩ V m ver) rfl rfl rfl rfl rfl
          ?_ ?_ ?_
        · exact hhold
        · intro _
          show NodeKey.root (V - 1) = ⟨ver [], []⟩
          rw [hr.root]; rfl
        · intro hm
          refine ⟨⟨by show V - 1 ≠ V; omega, .inl (by show V - 1 < V; omega)⟩, rfl, .inl ?_⟩
          have hm' : m = [] := hm
          have := ht.root
          rw [hm', canonNode_nil (by simp)] at this
          exact this
      · show R.getNodeOption ⟨V - 1, []⟩ ≠ _
        rw [ht.root]; simp
      · have : V - 1 = V := congrArg NodeKey.version h
        omega

/-- `put_value_sets` (with or without proofs) on a reader that serves the previous version. -/
theorem putSets_readyW {R : Reader} {V : Nat} {m ver} (hr : ReadyW F H R.getNodeOption V m ver)
    (wp : Bool) (sets : List ValueSet) (hsafe : F ∨ SafeSets H m sets) (hle : V + sets.length ≤ preGenesisVersion) :
    ∃ tc pss tc' infos, TreeCache.new R V = .ok tc ∧ putSets H wp V sets tc = .ok (pss, tc') ∧
      infos.map StepInfo.ws = sets ∧ Run H V R.getNodeOption m ver infos ∧
      tc'.frozen = pushAll H V R.getNodeOption m Frozen.empty infos ∧
      (wp = true → ProofSets H m sets pss) ∧ pss.length = sets.length := by
  by_cases hs : sets = []
  · have : ∃ tc, TreeCache.new R V = .ok tc := by
      unfold TreeCache.new
      split
      · next h =>
        have := (hr.zero h).2
        simp only [NodeKey.root, this, ok_bind]
        exact ⟨_, rfl⟩
      · exact ⟨_, rfl⟩
    obtain ⟨tc, htc⟩ := this
    obtain ⟨pss, tc', infos, b1, b2, b3, b4, b5⟩ := putSets_spec (H := H) wp sets tc V m ver
      (F := F) (fun h => absurd hs h) hsafe hle
    obtain ⟨c1, c2, c3⟩ := new_base htc
    rw [c1] at b3
    rw [c1, c2] at b4
    exact ⟨tc, pss, tc', infos, htc, b1, b2, b3, b4, b5⟩
  · have hpos := List.length_pos_iff.2 hs
    obtain ⟨tc, htc, hst⟩ := new_start hr (by omega)
    obtain ⟨pss, tc', infos, b1, b2, b3, b4, b5⟩ := putSets_spec (H := H) wp sets tc V m ver
      (fun _ => hst) hsafe hle
    obtain ⟨c1, c2, c3⟩ := new_base htc
    rw [c1] at b3
    rw [c1, c2] at b4
    exact ⟨tc, pss, tc', infos, htc, b1, b2, b3, b4, b5⟩

theorem putSets_ready {R : Reader} {V : Nat} {m ver} (hr : Ready H R.getNodeOption V m ver)
    (wp : Bool) (sets : List ValueSet) (hle : V + sets.length ≤ preGenesisVersion) :
    ∃ tc pss tc' infos, TreeCache.new R V = .ok tc ∧ putSets H wp V sets tc = .ok (pss, tc') ∧
      infos.map StepInfo.ws = sets ∧ Run H V R.getNodeOption m ver infos ∧
      tc'.frozen = pushAll H V R.getNodeOption m Frozen.empty infos ∧
      (wp = true → ProofSets H m sets pss) ∧ pss.length = sets.length :=
  putSets_readyW hr wp sets (.inl trivial) hle

end
end Jmt
