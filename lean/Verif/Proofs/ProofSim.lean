import Verif.Proofs.InsertMain
/-!
# Asking for proofs does not change what is written
-/
namespace Jmt

/-- `B` does what `A` does, up to the proof. -/
def Sim (A B : InsertRes) : Prop := ∀ r p tc, A = .ok (r, p, tc) → ∃ p', B = .ok (r, p', tc)

theorem Sim.refl (A : InsertRes) : Sim A A := fun _ p _ h => ⟨p, h⟩

section
variable {H : Hasher} {version : Version} {value : Option ValueHash}

theorem Sim.leaf (nodeKey : NodeKey) (leaf : LeafNode) (visited rem : List Nibble) (tc : TreeCache) :
    Sim (insertAtLeafNode H version value true nodeKey leaf visited rem tc)
      (insertAtLeafNode H version value false nodeKey leaf visited rem tc) := by
  intro r p tc' h
  unfold insertAtLeafNode at h ⊢
  simp only at h ⊢
  split at h
  · cases h
  · next h1 =>
    rw [if_neg h1]
    cases hs : (skipCommonPrefix rem (skipCommonPrefix visited leaf.keyHash.nibbles).2.2).2.1 with
    | nil =>
      rw [hs] at h
      simp only at h ⊢
      split at h
      · cases h
      · next h2 =>
        rw [if_neg h2]
        obtain ⟨tc1, a1, h⟩ := bind_ok_inv h
        rw [a1, ok_bind]
        cases value with
        | none =>
          simp only [Except.ok.injEq, Prod.mk.injEq] at h ⊢
          exact ⟨_, h.1, rfl, h.2.2⟩
        | some vh =>
          simp only at h ⊢
          obtain ⟨⟨nk, n, tc2⟩, a2, h⟩ := bind_ok_inv h
          rw [a2, ok_bind]
          simp only [Except.ok.injEq, Prod.mk.injEq] at h ⊢
          exact ⟨_, h.1, rfl, h.2.2⟩
    | cons newIdx rem'' =>
      rw [hs] at h
      simp only at h ⊢
      cases value with
      | none =>
        simp only [Except.ok.injEq, Prod.mk.injEq] at h ⊢
        exact ⟨_, h.1, rfl, h.2.2⟩
      | some vh =>
        simp only at h ⊢
        obtain ⟨tc1, a1, h⟩ := bind_ok_inv h
        rw [a1, ok_bind]
        cases hl : (skipCommonPrefix rem (skipCommonPrefix visited leaf.keyHash.nibbles).2.2).2.2 with
        | nil => rw [hl] at h; cases h
        | cons oldIdx t =>
          rw [hl] at h
          simp only at h ⊢
          split at h
          · cases h
          · next h2 =>
            rw [if_neg h2]
            obtain ⟨ok, a2, h⟩ := bind_ok_inv h
            rw [a2, ok_bind]
            obtain ⟨tc2, a3, h⟩ := bind_ok_inv h
            rw [a3, ok_bind]
            obtain ⟨nk, a4, h⟩ := bind_ok_inv h
            rw [a4, ok_bind]
            obtain ⟨⟨x1, x2, tc3⟩, a5, h⟩ := bind_ok_inv h
            rw [a5, ok_bind]
            obtain ⟨nh, a6, h⟩ := bind_ok_inv h
            rw [a6, ok_bind]
            obtain ⟨inode, a7, h⟩ := bind_ok_inv h
            rw [a7, ok_bind]
            obtain ⟨tc4, a8, h⟩ := bind_ok_inv h
            rw [a8, ok_bind]
            obtain ⟨⟨y1, y2, tc5⟩, a9, h⟩ := bind_ok_inv h
            rw [a9, ok_bind]
            simp only [Except.ok.injEq, Prod.mk.injEq] at h ⊢
            exact ⟨_, h.1, rfl, h.2.2⟩

theorem Sim.null (nodeKey : NodeKey) (ex : Bool) (visited rem : List Nibble) (tc : TreeCache) :
    Sim (insertAtNull version value true nodeKey ex visited rem tc)
      (insertAtNull version value false nodeKey ex visited rem tc) := by
  intro r p tc' h
  unfold insertAtNull at h ⊢
  split at h
  · cases h
  · next h1 =>
    rw [if_neg h1]
    obtain ⟨tc1, a1, h⟩ := bind_ok_inv h
    rw [a1, ok_bind]
    cases value with
    | none =>
      simp only [Except.ok.injEq, Prod.mk.injEq] at h ⊢
      exact ⟨_, h.1, rfl, h.2.2⟩
    | some vh =>
      simp only at h ⊢
      obtain ⟨⟨nk, n, tc2⟩, a2, h⟩ := bind_ok_inv h
      rw [a2, ok_bind]
      simp only [Except.ok.injEq, Prod.mk.injEq] at h ⊢
      exact ⟨_, h.1, rfl, h.2.2⟩

theorem rewriteInternal_proof (nodeKey : NodeKey) (cs : Children) (p p' : Option SMProof) (tc : TreeCache)
    {r q tc'} (h : rewriteInternal version nodeKey cs p tc = .ok (r, q, tc')) :
    ∃ q', rewriteInternal version nodeKey cs p' tc = .ok (r, q', tc') := by
  unfold rewriteInternal at h ⊢
  obtain ⟨tc1, a1, h⟩ := bind_ok_inv h
  rw [a1, ok_bind]
  simp only at h ⊢
  split at h
  · simp only [Except.ok.injEq, Prod.mk.injEq] at h ⊢
    exact ⟨_, h.1, rfl, h.2.2⟩
  · split at h
    · next hl =>
      rw [if_pos hl]
      obtain ⟨ck, a2, h⟩ := bind_ok_inv h
      rw [a2, ok_bind]
      obtain ⟨cn, a3, h⟩ := bind_ok_inv h
      rw [a3, ok_bind]
      obtain ⟨tc2, a4, h⟩ := bind_ok_inv h
      rw [a4, ok_bind]
      obtain ⟨tc3, a5, h⟩ := bind_ok_inv h
      rw [a5, ok_bind]
      simp only [Except.ok.injEq, Prod.mk.injEq] at h ⊢
      exact ⟨_, h.1, rfl, h.2.2⟩
    · next hl =>
      rw [if_neg hl]
      obtain ⟨ck, a2, h⟩ := bind_ok_inv h
      rw [a2, ok_bind]
      obtain ⟨cn, a3, h⟩ := bind_ok_inv h
      rw [a3, ok_bind]
      simp only [Except.ok.injEq, Prod.mk.injEq] at h ⊢
      exact ⟨_, h.1, rfl, h.2.2⟩
  · obtain ⟨ck, a2, h⟩ := bind_ok_inv h
    rw [a2, ok_bind]
    obtain ⟨cn, a3, h⟩ := bind_ok_inv h
    rw [a3, ok_bind]
    simp only [Except.ok.injEq, Prod.mk.injEq] at h ⊢
    exact ⟨_, h.1, rfl, h.2.2⟩

theorem rebuildInternal_proof (nodeKey : NodeKey) (node : InternalNode) (idx : Nibble) (r0 : PutResult)
    (p p' : Option SMProof) (tc : TreeCache) {r q tc'}
    (h : rebuildInternal H version true nodeKey node idx r0 p tc = .ok (r, q, tc')) :
    ∃ q', rebuildInternal H version false nodeKey node idx r0 p' tc = .ok (r, q', tc') := by
  unfold rebuildInternal at h ⊢
  cases r0 with
  | notChanged =>
    simp only [Except.ok.injEq, Prod.mk.injEq] at h ⊢
    exact ⟨_, h.1, rfl, h.2.2⟩
  | removed =>
    simp only at h ⊢
    obtain ⟨cs, a1, h⟩ := bind_ok_inv h
    rw [a1, ok_bind]
    exact rewriteInternal_proof nodeKey cs p p' tc h
  | updated k n =>
    simp only at h ⊢
    obtain ⟨cs, a1, h⟩ := bind_ok_inv h
    rw [a1, ok_bind]
    exact rewriteInternal_proof nodeKey cs p p' tc h

/-- The child found together with its siblings is the child at the index. -/
theorem childLoop_key {getNode : NodeKey → Except Err Node} {n : InternalNode} {nodeKey : NodeKey} {i : Nibble}
    {bm : BitVec 16 × BitVec 16} : ∀ (h : Nat) (acc : List SMNode) {ck sibs},
    n.getChildWithSiblingsLoop H getNode nodeKey i false bm h acc = .ok (some ck, sibs) →
    ∀ c, n.child i = some c → nodeKey.genChild c.version i = .ok ck := by
  intro h
  induction h with
  | zero => intro acc ck sibs h; cases h
  | succ h ih =>
    intro acc ck sibs heq c hc
    unfold InternalNode.getChildWithSiblingsLoop at heq
    simp only at heq
    obtain ⟨sib, -, heq⟩ := bind_ok_inv heq
    obtain ⟨r, -, heq⟩ := bind_ok_inv heq
    split at heq
    · cases heq
    · split at heq
      · next h1 => simp at h1
      · split at heq
        · obtain ⟨⟨j, c'⟩, a1, heq⟩ := bind_ok_inv heq
          unfold InternalNode.childAtIdx Nibble.ofNat? at a1
          rw [dif_pos i.isLt] at a1
          simp only [Fin.eta, hc, Except.ok.injEq, Prod.mk.injEq] at a1
          obtain ⟨rfl, rfl⟩ := a1
          obtain ⟨ck', a2, heq⟩ := bind_ok_inv heq
          simp only [Except.ok.injEq, Prod.mk.injEq, Option.some.injEq] at heq
          rw [← heq.1]; exact a2
        · exact ih _ heq c hc

theorem Sim.internal {recur recur' : NodeKey → TreeCache → InsertRes}
    (hrec : ∀ nk tc, Sim (recur nk tc) (recur' nk tc)) (nodeKey : NodeKey) (node : InternalNode) (idx : Nibble)
    (visited rem : List Nibble) (tc : TreeCache) :
    Sim (insertAtInternalNode H version value true recur nodeKey node idx visited rem tc)
      (insertAtInternalNode H version value false recur' nodeKey node idx visited rem tc) := by
  intro r p tc' h
  unfold insertAtInternalNode at h ⊢
  obtain ⟨⟨r1, p1, tc1⟩, h1, h⟩ := bind_ok_inv h
  simp only at h
  cases hc : node.child idx with
  | some c =>
    rw [hc] at h1
    simp only at h1 ⊢
    obtain ⟨⟨ck, sibs⟩, a1, h1⟩ := bind_ok_inv h1
    obtain ⟨⟨r2, p2, tc2⟩, a2, h1⟩ := bind_ok_inv h1
    simp only [Except.ok.injEq, Prod.mk.injEq] at h1
    obtain ⟨rfl, rfl, rfl⟩ := h1
    have hk : childKeyAndSiblings H false nodeKey node idx c tc = .ok (ck, []) := by
      unfold childKeyAndSiblings at a1 ⊢
      rw [if_neg (by simp)]
      rw [if_pos rfl] at a1
      obtain ⟨⟨ck?, s⟩, b1, a1⟩ := bind_ok_inv a1
      cases ck? with
      | none => cases a1
      | some ck' =>
        simp only [Except.ok.injEq, Prod.mk.injEq] at a1
        obtain ⟨rfl, rfl⟩ := a1
        unfold InternalNode.getChildWithSiblings at b1
        obtain ⟨bm, -, b1⟩ := bind_ok_inv b1
        rw [childLoop_key 4 [] b1 c hc, ok_bind]
    obtain ⟨p2', a2'⟩ := hrec ck tc r2 p2 tc2 a2
    obtain ⟨q', hq⟩ := rebuildInternal_proof nodeKey node idx r2 _ (extendProof [] p2') tc2 h
    refine ⟨q', ?_⟩
    simp only [hk, ok_bind, a2', hq]
  | none =>
    rw [hc] at h1
    simp only [if_true] at h1 ⊢
    obtain ⟨pf, a1, h1⟩ := bind_ok_inv h1
    cases value with
    | none =>
      simp only [Except.ok.injEq, Prod.mk.injEq] at h1
      obtain ⟨rfl, rfl, rfl⟩ := h1
      obtain ⟨q', hq⟩ := rebuildInternal_proof nodeKey node idx PutResult.notChanged _ (proofIf false none) tc h
      refine ⟨q', ?_⟩
      simpa using hq
    | some vh =>
      simp only at h1
      obtain ⟨nk, a2, h1⟩ := bind_ok_inv h1
      obtain ⟨⟨nk', n, tc2⟩, a3, h1⟩ := bind_ok_inv h1
      simp only [Except.ok.injEq, Prod.mk.injEq] at h1
      obtain ⟨rfl, rfl, rfl⟩ := h1
      obtain ⟨q', hq⟩ := rebuildInternal_proof nodeKey node idx (PutResult.updated nk' n) _ none tc2 h
      refine ⟨q', ?_⟩
      simp only [a2, ok_bind, a3]
      simpa using hq

theorem Sim.insertAt : ∀ (rem visited : List Nibble) (nk : NodeKey) (tc : TreeCache),
    Sim (insertAt H version value true rem visited nk tc) (insertAt H version value false rem visited nk tc) := by
  intro rem
  induction rem with
  | nil =>
    intro visited nk tc r p tc' h
    unfold Jmt.insertAt at h ⊢
    obtain ⟨node?, a1, h⟩ := bind_ok_inv h
    rw [a1, ok_bind]
    match node? with
    | none => exact Sim.null _ _ _ _ _ _ _ _ h
    | some .null => exact Sim.null _ _ _ _ _ _ _ _ h
    | some (.leaf l) => exact Sim.leaf _ _ _ _ _ _ _ _ h
    | some (.internal n) => cases h
  | cons idx rem ih =>
    intro visited nk tc r p tc' h
    unfold Jmt.insertAt at h ⊢
    obtain ⟨node?, a1, h⟩ := bind_ok_inv h
    rw [a1, ok_bind]
    match node? with
    | none => exact Sim.null _ _ _ _ _ _ _ _ h
    | some .null => exact Sim.null _ _ _ _ _ _ _ _ h
    | some (.leaf l) => exact Sim.leaf _ _ _ _ _ _ _ _ h
    | some (.internal n) =>
      exact Sim.internal (fun nk tc => ih (visited ++ [idx]) nk tc) _ _ _ _ _ _ _ _ _ h

end

theorem put_sim {H : Hasher} {key : KeyHash} {value : Option ValueHash} {version : Version} {tc tc' : TreeCache}
    {p} (h : put H key value version tc true = .ok (p, tc')) :
    ∃ p', put H key value version tc false = .ok (p', tc') := by
  unfold put at h ⊢
  obtain ⟨⟨r, pf, tc1⟩, a1, h⟩ := bind_ok_inv h
  obtain ⟨pf', a1'⟩ := Sim.insertAt _ _ _ _ r pf tc1 a1
  rw [a1', ok_bind]
  cases r with
  | updated nk n =>
    simp only [Except.ok.injEq, Prod.mk.injEq] at h ⊢
    exact ⟨_, rfl, h.2⟩
  | notChanged =>
    simp only [Except.ok.injEq, Prod.mk.injEq] at h ⊢
    exact ⟨_, rfl, h.2⟩
  | removed =>
    simp only at h ⊢
    obtain ⟨tc2, a2, h⟩ := bind_ok_inv h
    rw [a2, ok_bind]
    simp only [Except.ok.injEq, Prod.mk.injEq] at h ⊢
    exact ⟨_, rfl, h.2⟩

theorem putAll_sim {H : Hasher} {version : Version} : ∀ (vs : ValueSet) {tc tc' : TreeCache} {ps},
    putAll H version true vs tc = .ok (ps, tc') → putAll H version false vs tc = .ok ([], tc') := by
  intro vs
  induction vs with
  | nil => intro tc tc' ps h; unfold putAll at h ⊢; simp only [Except.ok.injEq, Prod.mk.injEq] at h ⊢; exact ⟨trivial, h.2⟩
  | cons w vs ih =>
    obtain ⟨k, x⟩ := w
    intro tc tc' ps h
    unfold putAll at h ⊢
    simp only at h ⊢
    obtain ⟨⟨p, tc1⟩, a1, h⟩ := bind_ok_inv h
    obtain ⟨p', a1'⟩ := put_sim a1
    rw [a1']
    obtain ⟨pp, -, h⟩ := bind_ok_inv h
    obtain ⟨⟨ps', tc2⟩, a2, h⟩ := bind_ok_inv h
    simp only [Except.ok.injEq, Prod.mk.injEq] at h
    simp only [ok_bind, ih a2, List.append_nil, h.2]

theorem putSets_sim {H : Hasher} : ∀ (sets : List ValueSet) (version : Nat) {tc tc' : TreeCache} {pss},
    putSets H true version sets tc = .ok (pss, tc') → ∃ pss', putSets H false version sets tc = .ok (pss', tc') := by
  intro sets
  induction sets with
  | nil => intro v tc tc' ps h; unfold putSets at h ⊢; simp only [Except.ok.injEq, Prod.mk.injEq] at h ⊢; exact ⟨_, rfl, h.2⟩
  | cons vs sets ih =>
    intro v tc tc' ps h
    unfold putSets at h ⊢
    obtain ⟨⟨p, tc1⟩, a1, h⟩ := bind_ok_inv h
    obtain ⟨tc2, a2, h⟩ := bind_ok_inv h
    obtain ⟨⟨ps', tc3⟩, a3, h⟩ := bind_ok_inv h
    simp only [Except.ok.injEq, Prod.mk.injEq] at h
    obtain ⟨pss', a3'⟩ := ih (v + 1) a3
    refine ⟨[] :: pss', ?_⟩
    simp only [putAll_sim vs a1, ok_bind, a2, a3', h.2]

end Jmt
