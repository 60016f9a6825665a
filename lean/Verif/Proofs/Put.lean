import Verif.Proofs.Siblings
import Verif.Model.Tree
/-!
# One `put` turns the canonical tree of `m` into the canonical tree of `m[k := x]`
-/
namespace Jmt
open Spec (Entry)

/-- Entry list after one write. -/
def upd (m : List Entry) (k : KeyHash) (x : Option ValueHash) : List Entry :=
  (match x with | some v => [(k, v)] | none => []) ++ m.filter (fun e => decide (e.1 ≠ k))

/-- What is fixed while one version is being built: the new version, the nodes below the mutable
cache, and the canonical tree they hold. -/
structure Ctx where
  H : Hasher
  V : Version
  B : NodeKey → Except Err (Option Node)
  m0 : List Entry
  ver0 : List Nibble → Version
  /-- version of the root node key before the first write -/
  rv : Version

/-- Node presence below `p` in the tree of `m`. -/
def pres (m : List Entry) (p q : List Nibble) : Prop :=
  p <+: q ∧ under q m ≠ [] ∧ (q = p ∨ 2 ≤ (under q.dropLast m).length)

/-- Non-null nodes of the base tree. -/
def Ctx.pres0 (C : Ctx) (q : List Nibble) : Prop := pres C.m0 [] q

/-- A version older than `v` (the pre-genesis version `u64::MAX` counts as older). -/
def Old (v w : Version) : Prop := w ≠ v ∧ (w < v ∨ w = preGenesisVersion)

/-- All base nodes are older than the version being built. -/
def Ctx.WF (C : Ctx) : Prop := ∀ q, C.pres0 q → Old C.V (C.ver0 q)

def Ctx.baseIsLeaf (C : Ctx) (k : NodeKey) : Bool :=
  match C.B k with
  | .ok (some n) => n.isLeaf
  | _ => false

/-- The node at `q` is where the version assignment says. -/
def Stored (C : Ctx) (tc : TreeCache) (m : List Entry) (ver : List Nibble → Version)
    (q : List Nibble) : Prop :=
  (ver q = C.V ∧ tc.nodeCache.get? ⟨C.V, q⟩ = some (canonNode C.H m ver q)) ∨
  (tc.nodeCache.get? ⟨ver q, q⟩ = none ∧ C.B ⟨ver q, q⟩ = .ok (some (canonNode C.H m ver q)) ∧ C.pres0 q ∧ ver q = C.ver0 q)

/-- Invariant at one path; `P` says whether a node is present there. -/
structure PInv (C : Ctx) (tc : TreeCache) (m : List Entry) (ver : List Nibble → Version)
    (q : List Nibble) (P : Prop) : Prop where
  stored : P → Stored C tc m ver q
  dom : ∀ w n, tc.nodeCache.get? ⟨w, q⟩ = some n → w = C.V ∧ P ∧ ver q = C.V
  stale : ∀ w, (⟨w, q⟩ : NodeKey) ∈ tc.stale ↔
    C.pres0 q ∧ w = C.ver0 q ∧ ¬ (P ∧ ver q = w ∧ tc.nodeCache.get? ⟨w, q⟩ = none)

/-- Invariant on the subtree at `p`. -/
def SubInv (C : Ctx) (tc : TreeCache) (m : List Entry) (ver : List Nibble → Version)
    (p : List Nibble) : Prop := ∀ q, p <+: q → PInv C tc m ver q (pres m p q)

/-- Counters and uniqueness of the cache. -/
structure CountInv (C : Ctx) (tc : TreeCache) : Prop where
  nodup : AMap.NodupKeys tc.nodeCache
  staleNodup : tc.stale.Nodup
  newLeaves : tc.numNewLeaves = tc.nodeCache.countP (fun e => e.2.isLeaf)
  staleLeaves : tc.numStaleLeaves = tc.stale.countP C.baseIsLeaf

/-- Fields untouched by node operations. -/
structure Same (tc tc' : TreeCache) : Prop where
  root : tc'.rootNodeKey = tc.rootNodeKey
  next : tc'.nextVersion = tc.nextVersion
  vals : tc'.valueCache = tc.valueCache
  frozen : tc'.frozen = tc.frozen
  reader : tc'.reader = tc.reader

/-- The two caches agree at path `q`. -/
def AgreeAt (tc tc' : TreeCache) (q : List Nibble) : Prop :=
  ∀ w, tc'.nodeCache.get? ⟨w, q⟩ = tc.nodeCache.get? ⟨w, q⟩ ∧
    ((⟨w, q⟩ : NodeKey) ∈ tc'.stale ↔ (⟨w, q⟩ : NodeKey) ∈ tc.stale)

theorem Same.refl (tc : TreeCache) : Same tc tc := ⟨rfl, rfl, rfl, rfl, rfl⟩
theorem Same.trans {a b c : TreeCache} (h1 : Same a b) (h2 : Same b c) : Same a c :=
  ⟨h2.root.trans h1.root, h2.next.trans h1.next, h2.vals.trans h1.vals, h2.frozen.trans h1.frozen,
   h2.reader.trans h1.reader⟩
theorem Same.base {a b : TreeCache} (h : Same a b) : b.base = a.base := by
  funext k; simp [TreeCache.base, h.frozen, h.reader]

theorem AgreeAt.refl (tc : TreeCache) (q) : AgreeAt tc tc q := fun _ => ⟨rfl, Iff.rfl⟩
theorem AgreeAt.trans {a b c : TreeCache} {q} (h1 : AgreeAt a b q) (h2 : AgreeAt b c q) :
    AgreeAt a c q := fun w => ⟨(h2 w).1.trans (h1 w).1, (h2 w).2.trans (h1 w).2⟩

section
variable {C : Ctx} {tc tc' : TreeCache} {m m' : List Entry} {ver ver' : List Nibble → Version}
  {p q : List Nibble} {P P' : Prop}

/-- `PInv` only looks at the cache at `q`, at the node at `q`, its version, and presence. -/
theorem PInv.congr (h : PInv C tc m ver q P) (ha : AgreeAt tc tc' q) (hP : P ↔ P')
    (hv : P → ver' q = ver q) (hn : P → canonNode C.H m' ver' q = canonNode C.H m ver q) :
    PInv C tc' m' ver' q P' := by
  refine ⟨fun hp => ?_, fun w n hw => ?_, fun w => ?_⟩
  · have hp := hP.2 hp
    have hst := h.stored hp
    unfold Stored at hst ⊢
    rw [hv hp, hn hp, (ha _).1, (ha _).1]
    exact hst
  · rw [(ha w).1] at hw
    obtain ⟨h1, h2, h3⟩ := h.dom w n hw
    exact ⟨h1, hP.1 h2, (hv h2).trans h3⟩
  · rw [(ha w).2, h.stale w]
    constructor
    · rintro ⟨h1, h2, h3⟩
      exact ⟨h1, h2, fun ⟨h4, h5, h6⟩ => h3 ⟨hP.2 h4, (hv (hP.2 h4)) ▸ h5, (ha w).1 ▸ h6⟩⟩
    · rintro ⟨h1, h2, h3⟩
      exact ⟨h1, h2, fun ⟨h4, h5, h6⟩ => h3 ⟨hP.1 h4, (hv h4).trans h5, (ha w).1.trans h6⟩⟩

theorem PInv.frame (h : PInv C tc m ver q P) (ha : AgreeAt tc tc' q) : PInv C tc' m ver q P :=
  h.congr ha Iff.rfl (fun _ => rfl) (fun _ => rfl)

/-- An absent path does not care about `m` and `ver`. -/
theorem PInv.absent (h : PInv C tc m ver q P) (hP : ¬ P) (hP' : ¬ P') : PInv C tc m' ver' q P' :=
  h.congr (AgreeAt.refl _ _) ⟨fun h => absurd h hP, fun h => absurd h hP'⟩
    (fun h => absurd h hP) (fun h => absurd h hP)

theorem PInv.iff (h : PInv C tc m ver q P) (hP : P ↔ P') : PInv C tc m ver q P' :=
  h.congr (AgreeAt.refl _ _) hP (fun _ => rfl) (fun _ => rfl)

/-- A present node can be read. -/
theorem PInv.get (h : PInv C tc m ver q P) (hP : P) (hb : tc.base = C.B) :
    tc.getNodeOption ⟨ver q, q⟩ = .ok (some (canonNode C.H m ver q)) := by
  unfold TreeCache.getNodeOption
  rcases h.stored hP with ⟨h1, h2⟩ | ⟨h1, h2, -, -⟩
  · rw [h1, h2]
  · simp only [h1, hb, h2]

theorem PInv.getNode (h : PInv C tc m ver q P) (hP : P) (hb : tc.base = C.B) :
    tc.getNode ⟨ver q, q⟩ = .ok (canonNode C.H m ver q) := by
  unfold TreeCache.getNode; rw [h.get hP hb]

theorem agree_of_ne_path {k : NodeKey} {n : Node} (hq : q ≠ k.path)
    (hc : tc'.nodeCache = tc.nodeCache.insert k n) (hs : tc'.stale = tc.stale) :
    AgreeAt tc tc' q := by
  intro w
  rw [hc, hs]
  refine ⟨?_, Iff.rfl⟩
  rw [AMap.get?_insert, if_neg]
  intro h; rw [h] at hq; exact hq rfl

/-- `put_node` at an absent path. -/
theorem putNode_spec (h : PInv C tc m ver q False) (ci : CountInv C tc) (n : Node) :
    ∃ tc', tc.putNode ⟨C.V, q⟩ n = .ok tc' ∧ Same tc tc' ∧ CountInv C tc' ∧
      (∀ q', q' ≠ q → AgreeAt tc tc' q') ∧
      (∀ m' ver', ver' q = C.V → canonNode C.H m' ver' q = n → PInv C tc' m' ver' q True) := by
  have hnone : tc.nodeCache.get? ⟨C.V, q⟩ = none := by
    cases hg : tc.nodeCache.get? ⟨C.V, q⟩ with
    | none => rfl
    | some n' => exact absurd (h.dom _ _ hg).2.1 (by simp)
  unfold TreeCache.putNode
  rw [hnone]
  refine ⟨_, rfl, ⟨rfl, rfl, rfl, rfl, rfl⟩, ?_, ?_, ?_⟩
  · refine ⟨ci.nodup.insert _ _, ci.staleNodup, ?_, ci.staleLeaves⟩
    show (if n.isLeaf = true then tc.numNewLeaves + 1 else tc.numNewLeaves) = _
    rw [AMap.insert_of_none hnone, List.countP_cons, ci.newLeaves]
    split <;> simp_all
  · intro q' hq'
    exact agree_of_ne_path (k := ⟨C.V, q⟩) hq' rfl rfl
  · intro m' ver' hv hn
    refine ⟨fun _ => .inl ⟨hv, ?_⟩, fun w n' hw => ?_, fun w => ?_⟩
    · show (tc.nodeCache.insert ⟨C.V, q⟩ n).get? _ = _
      rw [AMap.get?_insert, if_pos rfl, hn]
    · have hw' : (tc.nodeCache.insert ⟨C.V, q⟩ n).get? ⟨w, q⟩ = some n' := hw
      rw [AMap.get?_insert] at hw'
      by_cases hwV : w = C.V
      · exact ⟨hwV, trivial, hv⟩
      · rw [if_neg (by intro h; cases h; exact hwV rfl)] at hw'
        exact absurd (h.dom _ _ hw').2.1 (by simp)
    · show (⟨w, q⟩ : NodeKey) ∈ tc.stale ↔ _
      rw [h.stale w]
      constructor
      · rintro ⟨h1, h2, -⟩
        refine ⟨h1, h2, ?_⟩
        rintro ⟨-, h4, h5⟩
        have h5 : (tc.nodeCache.insert ⟨C.V, q⟩ n).get? ⟨w, q⟩ = none := h5
        rw [AMap.get?_insert, if_pos (by rw [← h4, hv])] at h5
        cases h5
      · rintro ⟨h1, h2, -⟩
        exact ⟨h1, h2, by simp⟩

/-- `delete_node` at a present path. -/
theorem deleteNode_spec (h : PInv C tc m ver q P) (hP : P) (ci : CountInv C tc) (f : Bool)
    (hf : f = (canonNode C.H m ver q).isLeaf) :
    ∃ tc', tc.deleteNode ⟨ver q, q⟩ f = .ok tc' ∧ Same tc tc' ∧ CountInv C tc' ∧
      (∀ q', q' ≠ q → AgreeAt tc tc' q') ∧ (∀ m' ver', PInv C tc' m' ver' q False) := by
  unfold TreeCache.deleteNode
  rcases h.stored hP with ⟨h1, h2⟩ | ⟨h1, h2, h3, h4⟩
  · rw [h1, h2]
    have hcnt := AMap.countP_erase ci.nodup h2 (fun e => e.2.isLeaf)
    simp only at hcnt
    have hnz : ¬ (f && tc.numNewLeaves == 0) = true := by
      intro hc
      simp only [Bool.and_eq_true, beq_iff_eq] at hc
      rw [hc.1] at hf
      rw [← hf] at hcnt
      simp only [↓reduceIte] at hcnt
      have := ci.newLeaves
      omega
    simp only [hnz, Bool.false_eq_true, ↓reduceIte]
    refine ⟨_, rfl, ⟨rfl, rfl, rfl, rfl, rfl⟩, ?_, ?_, ?_⟩
    · refine ⟨ci.nodup.erase _, ci.staleNodup, ?_, ci.staleLeaves⟩
      show (if f = true then tc.numNewLeaves - 1 else tc.numNewLeaves) = _
      rw [← hf] at hcnt
      rw [ci.newLeaves, ← hcnt]
      cases f <;> simp
    · intro q' hq' w
      refine ⟨?_, Iff.rfl⟩
      show (tc.nodeCache.erase ⟨C.V, q⟩).get? _ = _
      rw [AMap.get?_erase, if_neg]
      intro h; cases h; exact hq' rfl
    · intro m' ver'
      refine ⟨fun h => h.elim, fun w n' hw => ?_, fun w => ?_⟩
      · have hw' : (tc.nodeCache.erase ⟨C.V, q⟩).get? ⟨w, q⟩ = some n' := hw
        rw [AMap.get?_erase] at hw'
        split at hw'
        · exact absurd hw' (by simp)
        · rename_i hne
          obtain ⟨hw1, -, -⟩ := h.dom _ _ hw'
          rw [hw1] at hne
          exact absurd rfl hne
      · show (⟨w, q⟩ : NodeKey) ∈ tc.stale ↔ _
        rw [h.stale w]
        simp only [false_and, not_false_eq_true, and_true]
        constructor
        · rintro ⟨h5, h6, -⟩; exact ⟨h5, h6⟩
        · rintro ⟨h5, h6⟩
          refine ⟨h5, h6, ?_⟩
          rintro ⟨-, h7, h8⟩
          rw [← h7, h1, h2] at h8
          cases h8
  · rw [h1]
    have hns : (⟨ver q, q⟩ : NodeKey) ∉ tc.stale := by
      rw [h.stale]; rintro ⟨-, -, h5⟩; exact h5 ⟨hP, rfl, h1⟩
    simp only [hns, ↓reduceIte]
    refine ⟨_, rfl, ⟨rfl, rfl, rfl, rfl, rfl⟩, ?_, ?_, ?_⟩
    · refine ⟨ci.nodup, List.nodup_cons.2 ⟨hns, ci.staleNodup⟩, ci.newLeaves, ?_⟩
      show (if f = true then tc.numStaleLeaves + 1 else tc.numStaleLeaves) = _
      rw [List.countP_cons, ci.staleLeaves]
      have : C.baseIsLeaf ⟨ver q, q⟩ = f := by
        unfold Ctx.baseIsLeaf; rw [h2]; exact hf.symm
      rw [this]
      cases f <;> simp
    · intro q' hq' w
      refine ⟨rfl, ?_⟩
      show _ ∈ (⟨ver q, q⟩ : NodeKey) :: tc.stale ↔ _
      rw [List.mem_cons]
      constructor
      · rintro (h | h)
        · cases h; exact absurd rfl hq'
        · exact h
      · exact .inr
    · intro m' ver'
      refine ⟨fun h => h.elim, fun w n' hw => ?_, fun w => ?_⟩
      · obtain ⟨hw1, -, hw2⟩ := h.dom _ _ hw
        have hw : tc.nodeCache.get? ⟨w, q⟩ = some n' := hw
        rw [hw1, ← hw2, h1] at hw
        cases hw
      · show _ ∈ (⟨ver q, q⟩ : NodeKey) :: tc.stale ↔ _
        rw [List.mem_cons, h.stale w]
        simp only [false_and, not_false_eq_true, and_true]
        constructor
        · rintro (h5 | ⟨h5, h6, -⟩)
          · cases h5; exact ⟨h3, h4⟩
          · exact ⟨h5, h6⟩
        · rintro ⟨h5, h6⟩
          left; rw [h6, h4]

/-- When the base nodes are older than the version being built: where a present node is. -/
theorem PInv.stored' (hC : C.WF) (h : PInv C tc m ver q P) (hP : P) :
    (ver q = C.V ∧ tc.nodeCache.get? ⟨C.V, q⟩ = some (canonNode C.H m ver q)) ∨
    (ver q ≠ C.V ∧ C.B ⟨ver q, q⟩ = .ok (some (canonNode C.H m ver q)) ∧ C.pres0 q ∧ ver q = C.ver0 q) := by
  rcases h.stored hP with h | ⟨-, h2, h3, h4⟩
  · exact .inl h
  · exact .inr ⟨by rw [h4]; exact (hC q h3).1, h2, h3, h4⟩

/-- When the base nodes are older than the version being built: what is stale. -/
theorem PInv.stale' (hC : C.WF) (h : PInv C tc m ver q P) (w : Version) :
    (⟨w, q⟩ : NodeKey) ∈ tc.stale ↔ C.pres0 q ∧ w = C.ver0 q ∧ ¬ (P ∧ ver q = w) := by
  rw [h.stale w]
  refine and_congr_right fun h1 => and_congr_right fun h2 => not_congr (and_congr_right fun _ => ?_)
  refine ⟨fun h => h.1, fun h3 => ⟨h3, ?_⟩⟩
  cases hg : tc.nodeCache.get? ⟨w, q⟩ with
  | none => rfl
  | some n => exact absurd ((h2.symm.trans (h.dom _ _ hg).1)) (hC q h1).1

end
end Jmt
