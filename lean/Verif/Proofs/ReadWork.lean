import Verif.Spec.Work
import Verif.Proofs.InsertAt
/-!
# Which nodes a successful `get_with_proof` depends on
-/
namespace Jmt
open InternalNode

/-- The successful result `a` of `F` on `g` is determined by at most `N` lookups, all satisfying `P`. -/
def Dep {α : Type} (P : NodeKey → Prop) (N : Nat) (g : NodeKey → Except Err Node)
    (F : (NodeKey → Except Err Node) → Except Err α) (a : α) : Prop :=
  ∃ L : List NodeKey, L.length ≤ N ∧ (∀ k ∈ L, P k) ∧ ∀ g', (∀ k ∈ L, g' k = g k) → F g' = .ok a

theorem genChild_path {nk : NodeKey} {v : Version} {i : Nibble} {ck : NodeKey} (h : nk.genChild v i = .ok ck) :
    ck = ⟨v, nk.path ++ [i]⟩ := by
  unfold NodeKey.genChild at h
  split at h
  · cases h; rfl
  · cases h

variable {H : Hasher} {g : NodeKey → Except Err Node} {n : InternalNode} {nk : NodeKey}

theorem buildSibling_dep {start h : Nat} {bm : BitVec 16 × BitVec 16} {s : SMNode}
    (hs : n.buildSibling H g nk start h bm = .ok s) :
    Dep (fun k => ∃ j, k.path = nk.path ++ [j]) 1 g (fun g => n.buildSibling H g nk start h bm) s := by
  unfold buildSibling at hs
  obtain ⟨r, hr, hs⟩ := bind_ok_inv hs
  by_cases h1 : r.1 = 0#16
  · rw [if_pos h1] at hs
    cases hs
    refine ⟨[], by simp, by simp, fun g' _ => ?_⟩
    show n.buildSibling H g' nk start h bm = _
    unfold buildSibling
    rw [hr, ok_bind, if_pos h1]
  rw [if_neg h1] at hs
  by_cases h2 : hasOnlyChild (2 ^ h) r.1 r.2 = true
  · rw [if_pos h2] at hs
    obtain ⟨⟨i, c⟩, hc, hs⟩ := bind_ok_inv hs
    obtain ⟨ck, hk, hs⟩ := bind_ok_inv hs
    obtain ⟨cn, hn, hs⟩ := bind_ok_inv hs
    refine ⟨[ck], by simp, ?_, fun g' hg => ?_⟩
    · intro k hk'
      rw [List.mem_singleton] at hk'
      subst hk'
      exact ⟨i, by rw [genChild_path hk]⟩
    · have hg' : g' ck = g ck := hg ck (by simp)
      show n.buildSibling H g' nk start h bm = _
      unfold buildSibling
      rw [hr, ok_bind, if_neg h1, if_pos h2, hc, ok_bind]
      simp only []
      rw [hk, ok_bind, hg', hn, ok_bind]
      exact hs
  · rw [if_neg h2] at hs
    refine ⟨[], by simp, by simp, fun g' _ => ?_⟩
    show n.buildSibling H g' nk start h bm = _
    unfold buildSibling
    rw [hr, ok_bind, if_neg h1, if_neg h2]
    exact hs

theorem childLoop_dep {i : Nibble} {oc : Bool} {bm : BitVec 16 × BitVec 16} : ∀ {h : Nat} {acc : List SMNode}
    {ck? : Option NodeKey} {out : List SMNode},
    getChildWithSiblingsLoop H g n nk i oc bm h acc = .ok (ck?, out) →
    acc.length < out.length ∧
    (∀ ck, ck? = some ck → ∃ j, ck.path = nk.path ++ [j]) ∧
    Dep (fun k => ∃ j, k.path = nk.path ++ [j]) (out.length - acc.length) g
      (fun g => getChildWithSiblingsLoop H g n nk i oc bm h acc) (ck?, out) := by
  intro h
  induction h with
  | zero => intro acc ck? out hs; cases hs
  | succ h ih =>
    intro acc ck? out hs
    unfold getChildWithSiblingsLoop at hs
    simp only [] at hs
    obtain ⟨sib, hb, hs⟩ := bind_ok_inv hs
    obtain ⟨r, hr, hs⟩ := bind_ok_inv hs
    obtain ⟨L, l1, l2, l3⟩ := buildSibling_dep hb
    by_cases h1 : r.1 = 0#16
    · rw [if_pos h1] at hs
      cases hs
      refine ⟨by simp, (fun ck hc => by cases hc), L, by simp; omega, l2, fun g' hg => ?_⟩
      have := l3 g' hg
      show getChildWithSiblingsLoop H g' n nk i oc bm (h + 1) acc = _
      unfold getChildWithSiblingsLoop
      simp only [] at this ⊢
      rw [this, ok_bind, hr, ok_bind, if_pos h1]
    rw [if_neg h1] at hs
    by_cases h2 : (oc && hasOnlyChild (2 ^ h) r.1 r.2) = true
    · rw [if_pos h2] at hs
      obtain ⟨⟨j, c⟩, hc, hs⟩ := bind_ok_inv hs
      simp only [] at hs
      obtain ⟨ck, hk, hs⟩ := bind_ok_inv hs
      cases hs
      refine ⟨by simp, (fun ck' hc' => by cases hc'; exact ⟨j, by rw [genChild_path hk]⟩), L, by simp; omega, l2, fun g' hg => ?_⟩
      have := l3 g' hg
      show getChildWithSiblingsLoop H g' n nk i oc bm (h + 1) acc = _
      unfold getChildWithSiblingsLoop
      simp only [] at this ⊢
      rw [this, ok_bind, hr, ok_bind, if_neg h1, if_pos h2, hc, ok_bind]
      simp only []
      rw [hk, ok_bind]
    rw [if_neg h2] at hs
    by_cases h3 : (!oc && hasChild (2 ^ h) r.1 ((1 : BitVec 16) <<< i.val) r.2) = true
    · rw [if_pos h3] at hs
      obtain ⟨⟨j, c⟩, hc, hs⟩ := bind_ok_inv hs
      simp only [] at hs
      obtain ⟨ck, hk, hs⟩ := bind_ok_inv hs
      cases hs
      refine ⟨by simp, (fun ck' hc' => by cases hc'; exact ⟨j, by rw [genChild_path hk]⟩), L, by simp; omega, l2, fun g' hg => ?_⟩
      have := l3 g' hg
      show getChildWithSiblingsLoop H g' n nk i oc bm (h + 1) acc = _
      unfold getChildWithSiblingsLoop
      simp only [] at this ⊢
      rw [this, ok_bind, hr, ok_bind, if_neg h1, if_neg h2, if_pos h3, hc, ok_bind]
      simp only []
      rw [hk, ok_bind]
    rw [if_neg h3] at hs
    obtain ⟨q1, q2, L', l1', l2', l3'⟩ := ih hs
    simp only [List.length_append, List.length_singleton] at q1 l1'
    refine ⟨by omega, q2, L ++ L', by simp only [List.length_append]; omega, ?_, fun g' hg => ?_⟩
    · intro k hk
      rcases List.mem_append.1 hk with hk | hk
      · exact l2 k hk
      · exact l2' k hk
    · have e1 := l3 g' (fun k hk => hg k (List.mem_append_left _ hk))
      have e2 := l3' g' (fun k hk => hg k (List.mem_append_right _ hk))
      show getChildWithSiblingsLoop H g' n nk i oc bm (h + 1) acc = _
      unfold getChildWithSiblingsLoop
      simp only [] at e1 e2 ⊢
      rw [e1, ok_bind, hr, ok_bind, if_neg h1, if_neg h2, if_neg h3]
      exact e2

theorem children_dep {i : Nibble} {oc : Bool} {ck? : Option NodeKey} {out : List SMNode}
    (hs : n.getChildWithSiblings H g nk i oc = .ok (ck?, out)) :
    0 < out.length ∧ (∀ ck, ck? = some ck → ∃ j, ck.path = nk.path ++ [j]) ∧
    Dep (fun k => ∃ j, k.path = nk.path ++ [j]) out.length g
      (fun g => n.getChildWithSiblings H g nk i oc) (ck?, out) := by
  unfold getChildWithSiblings at hs
  obtain ⟨bm, hb, hs⟩ := bind_ok_inv hs
  obtain ⟨q1, q2, L, l1, l2, l3⟩ := childLoop_dep hs
  refine ⟨q1, q2, L, l1, l2, fun g' hg => ?_⟩
  show n.getChildWithSiblings H g' nk i oc = _
  unfold getChildWithSiblings
  rw [hb, ok_bind]
  exact l3 g' hg

theorem Reader.getNode_same {R R' : Reader} {k : NodeKey} (h : R'.getNodeOption k = R.getNodeOption k) :
    R'.getNode k = R.getNode k := by unfold Reader.getNode; rw [h]

theorem Reader.getValue_same {R R' : Reader} {v : Version} {k : KeyHash} (h : R'.getValueOption v k = R.getValueOption v k) :
    R'.getValue v k = R.getValue v k := by unfold Reader.getValue; rw [h]

theorem gwpLoop_dep {R : Reader} {key : KeyHash} {version : Version} : ∀ {fuel depth : Nat} {nk : NodeKey}
    {rem : List Nibble} {sibs : List SMNode} {x : Option Value} {P : SMProof},
    (depth = 0 → sibs = []) → getWithProofLoop H R key version fuel depth nk rem sibs = .ok (x, P) →
    sibs.length ≤ P.siblings.length ∧ ∃ L : List NodeKey, L.length ≤ 2 * (P.siblings.length - sibs.length) + 1 ∧
      ∀ R' : Reader, (∀ k ∈ L, R'.getNodeOption k = R.getNodeOption k) →
        R'.getValueOption version key = R.getValueOption version key →
        getWithProofLoop H R' key version fuel depth nk rem sibs = .ok (x, P) := by
  intro fuel
  induction fuel with
  | zero => intro depth nk rem sibs x P _ h; cases h
  | succ fuel ih =>
    intro depth nk rem sibs x P h0 h
    unfold getWithProofLoop at h
    obtain ⟨node, hn, h⟩ := bind_ok_inv h
    have hg : R.getNode nk = .ok node := by
      cases hr : R.getNode nk with
      | ok n' => rw [hr] at hn; exact hn
      | error e => rw [hr] at hn; simp only [] at hn; split at hn <;> cases hn
    have hread : ∀ R' : Reader, R'.getNodeOption nk = R.getNodeOption nk → R'.getNode nk = .ok node :=
      fun R' hk => (Reader.getNode_same hk).trans hg
    cases node with
    | null =>
      by_cases hd : depth = 0
      · simp only [hd, if_true] at h
        cases h
        refine ⟨by rw [h0 hd]; simp, [nk], by simp, fun R' hR _ => ?_⟩
        unfold getWithProofLoop
        rw [hread R' (hR nk (by simp))]
        simp only [hd, if_true, ok_bind]
      · simp only [hd, if_false] at h
        cases h
    | leaf l =>
      simp only [] at h
      obtain ⟨v, hv, h⟩ := bind_ok_inv h
      cases h
      refine ⟨by simp, [nk], by simp, fun R' hR hval => ?_⟩
      unfold getWithProofLoop
      rw [hread R' (hR nk (by simp))]
      simp only [ok_bind]
      by_cases hk : l.keyHash = key
      · rw [if_pos hk] at hv ⊢
        rw [hk] at hv ⊢
        rw [Reader.getValue_same hval, hv, ok_bind]
      · rw [if_neg hk] at hv ⊢
        cases hv
        rfl
    | internal inode =>
      cases rem with
      | nil => simp only [] at h; cases h
      | cons idx rem' =>
        simp only [] at h
        obtain ⟨⟨ck?, out⟩, hc, h⟩ := bind_ok_inv h
        simp only [] at h
        obtain ⟨q1, -, L, l1, -, l3⟩ := children_dep hc
        have hch : ∀ R' : Reader, (∀ k ∈ L, R'.getNodeOption k = R.getNodeOption k) →
            inode.getChildWithSiblings H R'.getNode nk idx true = .ok (ck?, out) :=
          fun R' hR => l3 R'.getNode (fun k hk => Reader.getNode_same (hR k hk))
        cases ck? with
        | none =>
          simp only [] at h
          cases h
          refine ⟨by simp, nk :: L, by simp; omega, fun R' hR _ => ?_⟩
          unfold getWithProofLoop
          rw [hread R' (hR nk (by simp))]
          simp only [ok_bind]
          rw [hch R' (fun k hk => hR k (List.mem_cons_of_mem _ hk)), ok_bind]
        | some ck =>
          simp only [] at h
          obtain ⟨r1, L', r2, r3⟩ := ih (fun hd => by omega) h
          simp only [List.length_append] at r1 r2
          refine ⟨by omega, nk :: (L ++ L'), by simp only [List.length_cons, List.length_append]; omega, fun R' hR hval => ?_⟩
          unfold getWithProofLoop
          rw [hread R' (hR nk (by simp))]
          simp only [ok_bind]
          rw [hch R' (fun k hk => hR k (List.mem_cons_of_mem _ (List.mem_append_left _ hk))), ok_bind]
          exact r3 R' (fun k hk => hR k (List.mem_cons_of_mem _ (List.mem_append_right _ hk))) hval

end Jmt
