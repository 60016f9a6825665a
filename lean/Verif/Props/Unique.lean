import Verif.Props.Range
/-!
# C53: a root hash has at most one proof for each key

The root `r` is any digest, not only the root of a tree: a light client that got the root from somewhere can rely on this
without knowing that anybody holds a tree for it.  As in C06, `Spec.NoCollision` speaks about the finitely many strings hashed
by the two checks only.
-/
namespace Jmt
open Spec (Entry Lists)

/-- The strings behind a proof: those hashed by the check, and those that give the hashes of the siblings. -/
def Spec.allProofStrings (H : Hasher) (P : SMProof) (key : KeyHash) : List Spec.Preimage :=
  Spec.proofStrings H P key ++ P.siblings.flatMap Spec.nodeString

variable {H : Hasher}

/-- The string of the leaf of a proof, if any. -/
def leafString : Option (KeyHash × ValueHash) → List Spec.Preimage
  | none => []
  | some l => [.leaf l.1 l.2]

theorem bottom_unique {a b : Option (KeyHash × ValueHash)} (hnc : Spec.NoCollision H (leafString a ++ leafString b))
    (h : Spec.bottomHash H a = Spec.bottomHash H b) : a = b := by
  cases a with
  | none => cases b with
    | none => rfl
    | some l => exact absurd h.symm (hnc.notPlaceholder (.leaf l.1 l.2) (by simp [leafString]))
  | some l => cases b with
    | none => exact absurd h (hnc.notPlaceholder (.leaf l.1 l.2) (by simp [leafString]))
    | some l' =>
      have := hnc.inj (.leaf l.1 l.2) (by simp [leafString]) (.leaf l'.1 l'.2) (by simp [leafString]) h
      simp only [Spec.Preimage.leaf.injEq] at this
      rw [Prod.ext this.1 this.2]

theorem combine_internal (b : Bool) (s h : Digest) : ∃ l r, Spec.combine b s h = .internal l r := by
  unfold Spec.combine; cases b <;> exact ⟨_, _, rfl⟩

theorem combine_inj {b : Bool} {s h s' h' : Digest} (he : Spec.combine b s h = Spec.combine b s' h') : s = s' ∧ h = h' := by
  unfold Spec.combine at he
  cases b
  · simp only [Bool.false_eq_true, if_false, Spec.Preimage.internal.injEq] at he
    exact ⟨he.2, he.1⟩
  · simp only [if_true, Spec.Preimage.internal.injEq] at he
    exact he

/-- A bottom hash is not the hash of an inner node. -/
theorem bottom_ne {a : Option (KeyHash × ValueHash)} {p : Spec.Preimage} (hp : ∃ l r, p = .internal l r)
    {ps : List Spec.Preimage} (hnc : Spec.NoCollision H ps) (ha : ∀ x ∈ leafString a, x ∈ ps) (hm : p ∈ ps) :
    Spec.bottomHash H a ≠ p.hash H := by
  intro h
  obtain ⟨l, r, rfl⟩ := hp
  cases a with
  | none => exact hnc.notPlaceholder _ hm h.symm
  | some e =>
    have := hnc.inj (.leaf e.1 e.2) (ha _ (by simp [leafString])) _ hm h
    cases this

/-- Two paths of the same key to the same hash are the same. -/
theorem pathD_unique {k : KeyHash} {a b : Option (KeyHash × ValueHash)} : ∀ (S S' : List Digest) (d : Nat),
    phD H k (Spec.bottomHash H a) d S = phD H k (Spec.bottomHash H b) d S' →
    Spec.NoCollision H ((leafString a ++ leafString b) ++ (psD H k (Spec.bottomHash H a) d S ++ psD H k (Spec.bottomHash H b) d S')) →
    a = b ∧ S = S' := by
  intro S
  induction S with
  | nil =>
    intro S' d h hnc
    cases S' with
    | nil => exact ⟨bottom_unique (NoCollision.sub hnc fun p hp => List.mem_append_left _ hp) h, rfl⟩
    | cons s S' =>
      exact absurd h (bottom_ne (combine_internal _ _ _) hnc (fun x hx => by simp [hx]) (by simp [psD]))
  | cons s S ih =>
    intro S' d h hnc
    cases S' with
    | nil =>
      exact absurd h.symm (bottom_ne (combine_internal _ _ _) hnc (fun x hx => by simp [hx]) (by simp [psD]))
    | cons s' S' =>
      have hc := hnc.inj _ (by simp [psD]) _ (by simp [psD]) h
      obtain ⟨h1, h2⟩ := combine_inj hc
      obtain ⟨h3, h4⟩ := ih S' (d + 1) h2 (NoCollision.sub hnc fun p hp => by
        simp only [psD, List.mem_append, List.mem_cons] at hp ⊢
        rcases hp with hp | hp | hp
        · exact .inl hp
        · exact .inr (.inl (.inr hp))
        · exact .inr (.inr (.inr hp)))
      exact ⟨h3, by rw [h1, h4]⟩

theorem psD_map (H : Hasher) (key : KeyHash) (h : Digest) (S : List SMNode) (d : Nat) :
    psD H key h d (S.map (SMNode.hash H)) = Spec.pathStrings H key h d S := by
  induction S generalizing d with
  | nil => rfl
  | cons s S ih => simp only [List.map_cons, psD, Spec.pathStrings, ih, phD_map]

/-- Sibling nodes with the same hash are the same. -/
theorem node_unique {s s' : SMNode} (hnc : Spec.NoCollision H (Spec.nodeString s ++ Spec.nodeString s'))
    (h : s.hash H = s'.hash H) : s = s' := by
  have hi := hnc.inj
  have hn := hnc.notPlaceholder
  match s, s', h, hi, hn with
  | .null, .null, _, _, _ => rfl
  | .null, .internal l r, h, _, hn => exact absurd h.symm (hn (.internal l r) (by simp [Spec.nodeString]))
  | .null, .leaf k v, h, _, hn => exact absurd h.symm (hn (.leaf k v) (by simp [Spec.nodeString]))
  | .internal l r, .null, h, _, hn => exact absurd h (hn (.internal l r) (by simp [Spec.nodeString]))
  | .leaf k v, .null, h, _, hn => exact absurd h (hn (.leaf k v) (by simp [Spec.nodeString]))
  | .internal l r, .leaf k v, h, hi, _ =>
    cases hi (.internal l r) (by simp [Spec.nodeString]) (.leaf k v) (by simp [Spec.nodeString]) h
  | .leaf k v, .internal l r, h, hi, _ =>
    cases hi (.leaf k v) (by simp [Spec.nodeString]) (.internal l r) (by simp [Spec.nodeString]) h
  | .internal l r, .internal l' r', h, hi, _ =>
    cases hi (.internal l r) (by simp [Spec.nodeString]) (.internal l' r') (by simp [Spec.nodeString]) h
    rfl
  | .leaf k v, .leaf k' v', h, hi, _ =>
    cases hi (.leaf k v) (by simp [Spec.nodeString]) (.leaf k' v') (by simp [Spec.nodeString]) h
    rfl

theorem nodes_unique : ∀ (S S' : List SMNode), S.map (SMNode.hash H) = S'.map (SMNode.hash H) →
    Spec.NoCollision H (S.flatMap Spec.nodeString ++ S'.flatMap Spec.nodeString) → S = S' := by
  intro S
  induction S with
  | nil => intro S' h _; cases S' with
    | nil => rfl
    | cons _ _ => simp at h
  | cons s S ih => intro S' h hnc; cases S' with
    | nil => simp at h
    | cons s' S' =>
      simp only [List.map_cons, List.cons.injEq] at h
      rw [node_unique (NoCollision.sub hnc fun p hp => by
          simp only [List.flatMap_cons, List.mem_append] at hp ⊢
          exact hp.imp .inl .inl) h.1,
        ih S' h.2 (NoCollision.sub hnc fun p hp => by
          simp only [List.flatMap_cons, List.mem_append] at hp ⊢
          exact hp.imp .inr .inr)]

theorem checkLeaf_value {P : SMProof} {k : KeyHash} {x : Option Value} (h : P.checkLeaf H k x = .ok ()) :
    (∀ v, x = some v → P.leaf = some (k, H.hash v)) ∧ (x = none → ∀ vh, P.leaf ≠ some (k, vh)) := by
  unfold SMProof.checkLeaf at h
  constructor
  · rintro v rfl
    cases hl : P.leaf with
    | none => rw [hl] at h; cases h
    | some l =>
      rw [hl] at h
      simp only at h
      by_cases hk : k = l.1
      · rw [if_neg (by simpa using hk)] at h
        by_cases hv : H.hash v = l.2
        · rw [hk, hv]
        · rw [if_pos hv] at h; cases h
      · rw [if_pos hk] at h; cases h
  · rintro rfl vh hl
    rw [hl] at h
    simp at h

/-- C53: two accepted proofs for the same key against the same root are the same proof, and claim the same: both an
existence with equal value hashes, or both non-existence.  `a`, `b` are the claimed values (`none`: absent). -/
theorem C53_proof_unique {r : Digest} {k : KeyHash} {P Q : SMProof} {a b : Option Value}
    (hP : P.verify H r k a = .ok ()) (hQ : Q.verify H r k b = .ok ())
    (hnc : Spec.NoCollision H (Spec.allProofStrings H P k ++ Spec.allProofStrings H Q k)) :
    P = Q ∧ a.map H.hash = b.map H.hash := by
  obtain ⟨-, p2, p3⟩ := verify_iff.1 hP
  obtain ⟨-, q2, q3⟩ := verify_iff.1 hQ
  have hs : ∀ (R : SMProof), Spec.allProofStrings H R k = (leafString R.leaf ++
      psD H k (Spec.bottomHash H R.leaf) 0 (R.siblings.reverse.map (SMNode.hash H))) ++ R.siblings.flatMap Spec.nodeString := by
    intro R
    unfold Spec.allProofStrings Spec.proofStrings
    rw [psD_map]
    cases R.leaf <;> rfl
  rw [hs P, hs Q] at hnc
  rw [← q3, ← phD_map, ← phD_map] at p3
  obtain ⟨h1, h2⟩ := pathD_unique _ _ _ p3 (NoCollision.sub hnc fun p hp => by
    simp only [List.mem_append] at hp ⊢
    rcases hp with (hp | hp) | hp | hp
    · exact .inl (.inl (.inl hp))
    · exact .inr (.inl (.inl hp))
    · exact .inl (.inl (.inr hp))
    · exact .inr (.inl (.inr hp)))
  have h3 := nodes_unique P.siblings Q.siblings (by
      have := congrArg List.reverse h2
      simpa [List.map_reverse] using this) (NoCollision.sub hnc fun p hp => by
    simp only [List.mem_append] at hp ⊢
    exact hp.imp .inr .inr)
  refine ⟨by cases P; cases Q; simp only at h1 h3; rw [h1, h3], ?_⟩
  have pv := checkLeaf_value p2
  have qv := checkLeaf_value q2
  cases a with
  | none => cases b with
    | none => rfl
    | some y => exact absurd (h1.trans (qv.1 y rfl)) (pv.2 rfl _)
  | some x => cases b with
    | none => exact absurd (h1.symm.trans (pv.1 x rfl)) (qv.2 rfl _)
    | some y =>
      have := (pv.1 x rfl).symm.trans (h1.trans (qv.1 y rfl))
      simp only [Option.some.injEq, Prod.mk.injEq] at this
      simp [this.2]

/-- C53 over a history: the only proof accepted for a key against the root hash of a readable version is the one
`get_with_proof` returns, with the value it returns. -/
theorem C53_only_served_proof {ops : List Op} {y : Sys} (hr : Reached H ops y)
    (hb : (setsOf ops).length < 2 ^ 64) {v : Version} (hv : Readable ops v) {root : Digest}
    (hroot : getRootHash H y.store.reader v = .ok root) {k : KeyHash} {x : Option Value} {P Q : SMProof} {b : Option Value}
    (hserved : getWithProof H y.store.reader k v = .ok (x, P))
    (hnc : Spec.NoCollision H (Spec.allProofStrings H P k ++ Spec.allProofStrings H Q k))
    (hQ : Q.verify H root k b = .ok ()) : Q = P ∧ b.map H.hash = x.map H.hash := by
  have hP : P.verify H root k x = .ok () := by
    cases hx : mapAt ops v k with
    | none =>
      obtain ⟨P', r', h1, h2, h3⟩ := C05_nonexistence_complete hr hb hv hx
      rw [hserved] at h1; rw [hroot] at h2
      cases h1; cases h2; exact h3
    | some z =>
      obtain ⟨P', r', h1, h2, h3⟩ := C04_existence_complete hr hb hv hx
      rw [hserved] at h1; rw [hroot] at h2
      cases h1; cases h2; exact h3
  exact ⟨(C53_proof_unique hP hQ hnc).1.symm, (C53_proof_unique hP hQ hnc).2.symm⟩

/-- The strings behind a range proof: those hashed by the check, and those that give the hashes of the right siblings. -/
def Spec.allRangeStrings (H : Hasher) (P : RangeProof) (leaf : Entry) (lefts : List Digest) : List Spec.Preimage :=
  Spec.rangeStrings H P.rightSiblings leaf lefts ++ P.rightSiblings.flatMap Spec.nodeString

theorem range_verify_inv {P : RangeProof} {r : Digest} {k : KeyHash} {vh : ValueHash} {ls : List Digest} {checked : Bool}
    (hlen : ls.length + P.rightSiblings.length ≤ 256) (hv : P.verify H checked r (k, vh) ls = .ok ()) :
    ∃ S : List Digest, phD H k (H.leafHash k vh) 0 S = r ∧ pick k true 0 S = ls ∧
      pick k false 0 S = P.rightSiblings.map (SMNode.hash H) ∧
      ∀ p ∈ psD H k (H.leafHash k vh) 0 S, p ∈ Spec.rangeStrings H P.rightSiblings (k, vh) ls := by
  unfold RangeProof.verify at hv
  have hu : usub checked 256 (ls.length + P.rightSiblings.length) = .ok (256 - (ls.length + P.rightSiblings.length)) := by
    unfold usub; rw [if_pos hlen]
  rw [hu, ok_bind] at hv
  simp only [bitsUp_eq k hlen] at hv
  obtain ⟨c, hc, hv⟩ := bind_ok_inv hv
  obtain ⟨S, s1, s2, s3, s4, s5⟩ := verifyLoop_inv H k _ _ _ _ _ rfl hc
  by_cases hne : c = r
  · refine ⟨S, by rw [← s2, hne], s3, s4, fun p hp => ?_⟩
    rw [s5, List.mem_reverse] at hp
    exact List.mem_cons_of_mem _ hp
  · rw [if_pos hne] at hv; cases hv

/-- With overflow checks an accepted range proof has at most 256 siblings. -/
theorem range_len {c : Bool} {P : RangeProof} {r : Digest} {leaf ls}
    (h : c = false → ls.length + P.rightSiblings.length ≤ 256) (hP : P.verify H c r leaf ls = .ok ()) :
    ls.length + P.rightSiblings.length ≤ 256 := by
  cases c with
  | false => exact h rfl
  | true =>
    apply Decidable.byContradiction
    intro hn
    unfold RangeProof.verify usub at hP
    rw [if_neg hn, if_pos rfl] at hP
    cases hP

/-- C53: the exception of `C53_range_unique`.  Without overflow checks the number of bits to skip wraps around when there are more
than 256 siblings: every such proof and every list of left siblings is accepted, for any key and value, exactly for the root of the
tree with that one leaf. -/
theorem C53_long_range_proofs (H : Hasher) (P : RangeProof) (k : KeyHash) (vh : ValueHash) (ls : List Digest) (r : Digest)
    (hlong : 256 < ls.length + P.rightSiblings.length) (hmach : ls.length + P.rightSiblings.length < 2 ^ 64) :
    P.verify H false r (k, vh) ls = .ok () ↔ r = Spec.root H [(k, vh)] := by
  have hr : Spec.root H [(k, vh)] = H.leafHash k vh := rfl
  have hskip : usub false 256 (ls.length + P.rightSiblings.length) =
      .ok (256 + u64Size - (ls.length + P.rightSiblings.length)) := by
    unfold usub
    rw [if_neg (by omega), if_neg (by simp)]
  have hdrop : ((Bytes32.iterBits k).reverse.drop (256 + u64Size - (ls.length + P.rightSiblings.length))) = [] := by
    apply List.drop_eq_nil_of_le
    rw [List.length_reverse]
    have : (Bytes32.iterBits k).length = 256 := by simp [Bytes32.iterBits]
    unfold u64Size
    omega
  unfold RangeProof.verify
  rw [hskip, ok_bind]
  simp only [hdrop, RangeProof.verifyLoop, ok_bind, hr]
  constructor
  · intro h
    split at h
    · cases h
    · next hn => exact (Decidable.not_not.1 hn).symm
  · intro h
    rw [if_neg (by simp [h])]

/-- C53 for range proofs: for a rightmost key and a root at most one range proof, one value hash and one list of left siblings
is accepted (with at most 256 siblings; more only pass without overflow checks: `C53_long_range_proofs`). -/
theorem C53_range_unique {r : Digest} {k : KeyHash} {P Q : RangeProof} {vh vh' : ValueHash} {ls ls' : List Digest} {c c' : Bool}
    (hlp : c = false → ls.length + P.rightSiblings.length ≤ 256)
    (hlq : c' = false → ls'.length + Q.rightSiblings.length ≤ 256)
    (hP : P.verify H c r (k, vh) ls = .ok ()) (hQ : Q.verify H c' r (k, vh') ls' = .ok ())
    (hnc : Spec.NoCollision H (Spec.allRangeStrings H P (k, vh) ls ++ Spec.allRangeStrings H Q (k, vh') ls')) :
    P = Q ∧ vh = vh' ∧ ls = ls' := by
  replace hlp := range_len hlp hP
  replace hlq := range_len hlq hQ
  obtain ⟨S, p1, p2, p3, p4⟩ := range_verify_inv hlp hP
  obtain ⟨S', q1, q2, q3, q4⟩ := range_verify_inv hlq hQ
  obtain ⟨h1, h2⟩ := pathD_unique (H := H) (k := k) (a := some (k, vh)) (b := some (k, vh')) S S' 0
    (p1.trans q1.symm) (NoCollision.sub hnc fun p hp => by
      simp only [Spec.allRangeStrings, List.mem_append] at hp ⊢
      rcases hp with (hp | hp) | hp | hp
      · exact .inl (.inl (by simp only [leafString, List.mem_singleton] at hp; rw [hp]; exact List.mem_cons_self ..))
      · exact .inr (.inl (by simp only [leafString, List.mem_singleton] at hp; rw [hp]; exact List.mem_cons_self ..))
      · exact .inl (.inl (p4 p hp))
      · exact .inr (.inl (q4 p hp)))
  subst h2
  have h3 := nodes_unique P.rightSiblings Q.rightSiblings (p3.symm.trans q3) (NoCollision.sub hnc fun p hp => by
    simp only [Spec.allRangeStrings, List.mem_append] at hp ⊢
    exact hp.imp .inr .inr)
  simp only [Option.some.injEq, Prod.mk.injEq, true_and] at h1
  exact ⟨by cases P; cases Q; simp only at h3; rw [h3], h1, p2.symm.trans q2⟩

/-! ### The hypotheses are met -/

/-- The served proof and itself. -/
example : Sample.proof10 = Sample.proof10 ∧ (some [4] : Option Value).map Sample.T.hash = (some [4]).map Sample.T.hash :=
  C53_proof_unique Sample.accepted Sample.accepted ⟨by decide +kernel, by decide +kernel⟩

/-- A history: the proof served for the key `10..` at version 3 is the only one. -/
example (Q : SMProof) (b : Option Value) : ∃ y root x P, Reached Sample.T Sample.ops y ∧
    getRootHash Sample.T y.store.reader 3 = .ok root ∧
    getWithProof Sample.T y.store.reader (Sample.key 0x10) 3 = .ok (x, P) ∧
    Spec.NoCollision Sample.T (Spec.allProofStrings Sample.T P (Sample.key 0x10)) ∧
    (Spec.NoCollision Sample.T (Spec.allProofStrings Sample.T P (Sample.key 0x10) ++
      Spec.allProofStrings Sample.T Q (Sample.key 0x10)) →
     Q.verify Sample.T root (Sample.key 0x10) b = .ok () → Q = P ∧ b.map Sample.T.hash = x.map Sample.T.hash) := by
  obtain ⟨y, hy⟩ := Sample.reached Sample.T
  have ra := hy.readAt Sample.bound Sample.readable3
  exact ⟨y, _, _, _, hy, ra.rootHash, ra.gwp (Sample.key 0x10), ⟨by decide +kernel, by decide +kernel⟩,
    fun hnc hq => C53_only_served_proof hy Sample.bound Sample.readable3 ra.rootHash (ra.gwp _) hnc hq⟩

/-- No other proof with few siblings is accepted: the hypotheses can be met by a claim that is then refuted. -/
example (Q : SMProof) (b : Option Value)
    (hnc : Spec.NoCollision Sample.T (Spec.allProofStrings Sample.T Sample.proof10 (Sample.key 0x10) ++
      Spec.allProofStrings Sample.T Q (Sample.key 0x10))) (hne : Q.siblings ≠ [.leaf (Sample.key 0x80) (Sample.toy [3])]) :
    Q.verify Sample.T (Spec.root Sample.T Sample.es2) (Sample.key 0x10) b ≠ .ok () := by
  intro h
  have := (C53_proof_unique Sample.accepted h hnc).1
  exact hne (by rw [← this]; rfl)

example : Sample.range80 = Sample.range80 ∧ Sample.toy [3] = Sample.toy [3] ∧ [Sample.T.leafHash (Sample.key 0x10) (Sample.toy [4])] = [Sample.T.leafHash (Sample.key 0x10) (Sample.toy [4])] :=
  C53_range_unique (H := Sample.T) (k := Sample.key 0x80) (r := Spec.root Sample.T Sample.es2)
    (ls := [Sample.T.leafHash (Sample.key 0x10) (Sample.toy [4])]) (ls' := [Sample.T.leafHash (Sample.key 0x10) (Sample.toy [4])])
    (c := true) (c' := false) (by simp) (fun _ => by decide)
    (Sample.ok_of (by decide +kernel)) (Sample.ok_of (by decide +kernel)) ⟨by decide +kernel, by decide +kernel⟩

/-- Two different range proofs for the same leaf of the tree with only that leaf. -/
example : (⟨List.replicate 257 .null⟩ : RangeProof).verify Sample.T false (Spec.root Sample.T [(Sample.key 0x80, Sample.toy [3])])
      (Sample.key 0x80, Sample.toy [3]) [] = .ok () ∧
    (⟨List.replicate 258 .null⟩ : RangeProof).verify Sample.T false (Spec.root Sample.T [(Sample.key 0x80, Sample.toy [3])])
      (Sample.key 0x80, Sample.toy [3]) [] = .ok () :=
  ⟨(C53_long_range_proofs Sample.T _ _ _ _ _ (by rw [List.length_replicate]; decide) (by rw [List.length_replicate]; decide)).2 rfl,
    (C53_long_range_proofs Sample.T _ _ _ _ _ (by rw [List.length_replicate]; decide) (by rw [List.length_replicate]; decide)).2 rfl⟩

end Jmt
