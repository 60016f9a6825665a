import Verif.Proofs.GetProof
import Verif.Model.Proof
import Verif.Spec.Hashing
/-!
# Verification of existence and non-existence proofs: completeness and soundness
-/
namespace Jmt
open Spec (Entry)

theorem getBit_eq (k : Bytes32) (i : Nat) : Bytes32.getBit k i = Spec.bit k i := by
  unfold Bytes32.getBit Spec.bit Bytes32.byte
  have h : ∀ n : Fin 256, ∀ j : Fin 8,
      ((UInt8.ofNat n.val >>> UInt8.ofNat (7 - j.val)) &&& 1 != 0) = n.val.testBit (7 - j.val) := by
    decide +kernel
  have := h ⟨(k.val.getD (i / 8) 0).toNat, UInt8.toNat_lt _⟩ ⟨i % 8, Nat.mod_lt _ (by decide)⟩
  simpa using this

theorem iterBits_eq (k : Bytes32) : Bytes32.iterBits k = keyBits k := by
  apply List.ext_getElem?
  intro i
  unfold Bytes32.iterBits
  by_cases hi : i < 256
  · rw [keyBits_getElem? k i hi]
    simp [hi, getBit_eq]
  · rw [List.getElem?_eq_none (by simp; omega), List.getElem?_eq_none (by simp; omega)]

theorem keyBits_take (k : KeyHash) {n : Nat} (hn : n ≤ 256) :
    (keyBits k).take n = (List.range n).map (Spec.bit k) := by
  rw [← iterBits_eq]
  unfold Bytes32.iterBits
  rw [← List.map_take, List.take_range, Nat.min_eq_left hn]
  apply List.map_congr_left
  intro a _; exact getBit_eq k a

theorem foldr_pathHash (H : Hasher) (key : KeyHash) (start : Digest) : ∀ (S : List SMNode) (d : Nat),
    (S.zip ((List.range' d S.length).map (Spec.bit key))).foldr (fun p h => SMProof.foldStep H h p) start
      = Spec.pathHash H key start d S := by
  intro S
  induction S with
  | nil => intro d; rfl
  | cons s S ih =>
    intro d
    simp only [List.length_cons, List.range'_succ, List.map_cons, List.zip_cons_cons, List.foldr_cons,
      Spec.pathHash, ih]
    unfold SMProof.foldStep Spec.combine
    cases Spec.bit key d <;> rfl

/-- The fold over the siblings climbs the path of the key. -/
theorem foldSiblings_eq (H : Hasher) (start : Digest) (sibs : List SMNode) (key : KeyHash)
    (hn : sibs.length ≤ 256) :
    SMProof.foldSiblings H start sibs key (256 - sibs.length) = Spec.pathHash H key start 0 sibs.reverse := by
  unfold SMProof.foldSiblings
  have hb : (Bytes32.iterBits key).reverse.drop (256 - sibs.length)
      = ((List.range' 0 sibs.length).map (Spec.bit key)).reverse := by
    rw [List.drop_reverse, iterBits_eq, keyBits_length, ← List.range_eq_range', ← keyBits_take key hn]
    congr 2
    omega
  rw [hb]
  have hz : sibs.zip ((List.range' 0 sibs.length).map (Spec.bit key)).reverse
      = (sibs.reverse.zip ((List.range' 0 sibs.length).map (Spec.bit key))).reverse := by
    rw [List.zip_eq_zipWith, List.zip_eq_zipWith, List.reverse_zipWith (by simp)]
    simp
  rw [hz, List.foldl_reverse]
  have := foldr_pathHash H key start sibs.reverse 0
  rw [List.length_reverse] at this
  exact this

theorem takeWhile_len_ge {α : Type} [BEq α] [LawfulBEq α] : ∀ (l l' : List α) (n : Nat),
    n ≤ ((l.zip l').takeWhile (fun p => p.1 == p.2)).length →
    l.take n = l'.take n ∧ (n ≤ l.length ∧ n ≤ l'.length) := by
  intro l
  induction l with
  | nil => intro l' n h; simp at h; simp [h]
  | cons a l ih =>
    intro l' n h
    cases l' with
    | nil => simp at h; simp [h]
    | cons a' l' =>
      cases n with
      | zero => simp
      | succ n =>
        simp only [List.zip_cons_cons, List.takeWhile_cons] at h
        by_cases haa : (a == a') = true
        · simp only [haa, if_true, List.length_cons, Nat.add_le_add_iff_right] at h
          obtain ⟨h1, h2, h3⟩ := ih l' n h
          have : a = a' := by simpa using haa
          simp [this, h1, h2, h3]
        · simp [haa] at h

theorem le_takeWhile_len {α : Type} [BEq α] [LawfulBEq α] : ∀ (l l' : List α) (n : Nat),
    l.take n = l'.take n → n ≤ l.length → n ≤ l'.length →
    n ≤ ((l.zip l').takeWhile (fun p => p.1 == p.2)).length := by
  intro l
  induction l with
  | nil => intro l' n h h1 h2; simpa using h1
  | cons a l ih =>
    intro l' n h h1 h2
    cases n with
    | zero => simp
    | succ n =>
      cases l' with
      | nil => simp at h2
      | cons a' l' =>
        simp only [List.take_succ_cons, List.cons.injEq] at h
        simp only [List.length_cons, Nat.add_le_add_iff_right] at h1 h2
        have := ih l' n h.2 h1 h2
        simp [h.1, this]

/-- `n` is at most the number of common leading bits iff the first `n` bits agree. -/
theorem le_commonPrefixBitsLen {a b : KeyHash} {n : Nat} (hn : n ≤ 256) :
    n ≤ Bytes32.commonPrefixBitsLen a b ↔ (keyBits a).take n = (keyBits b).take n := by
  unfold Bytes32.commonPrefixBitsLen
  rw [iterBits_eq, iterBits_eq]
  constructor
  · intro h; exact (takeWhile_len_ge _ _ _ h).1
  · intro h; exact le_takeWhile_len _ _ _ h (by simpa using hn) (by simpa using hn)

/-! ### Completeness -/

section
variable {H : Hasher} {m : List Entry} {k : KeyHash}

theorem walk_end_eq (b xs : List Bool) :
    (walk H m b xs).2 = b ++ xs.take (walk H m b xs).1.length := by
  induction xs generalizing b with
  | nil => simp [walk]
  | cons x xs ih =>
    by_cases h : (ub b m).length ≤ 1
    · simp [walk_stop h]
    · rw [walk_step (by omega)]
      simp only [List.length_cons, List.take_succ_cons]
      rw [ih]; simp

theorem walk_len_le (b xs : List Bool) : (walk H m b xs).1.length ≤ xs.length := by
  induction xs generalizing b with
  | nil => simp [walk]
  | cons x xs ih =>
    by_cases h : (ub b m).length ≤ 1
    · simp [walk_stop h]
    · rw [walk_step (by omega)]
      simp only [List.length_cons]
      have := ih (b ++ [x])
      omega

theorem keyBits_split {b : List Bool} {x : Bool} {xs : List Bool} (h : b ++ x :: xs = keyBits k) :
    x = Spec.bit k b.length ∧ b.length < 256 := by
  have hl : b.length < 256 := by
    have := congrArg List.length h
    simp at this; omega
  have := keyBits_getElem? k b.length hl
  rw [← h] at this
  simp at this
  exact ⟨this, hl⟩

theorem combine_sh (hm : NodupE m) {b : List Bool} (h2 : 2 ≤ (ub b m).length) (x : Bool) (H : Hasher) :
    (Spec.combine x (sh H m (b ++ [!x])) (sh H m (b ++ [x]))).hash H = sh H m b := by
  rw [sh_two H (length_lt_of_two hm h2) h2]
  cases x <;> rfl

/-- Climbing the canonical siblings from the bottom of the walk gives the hash at its top. -/
theorem pathHash_walk (hm : NodupE m) : ∀ (xs b : List Bool), b ++ xs = keyBits k →
    Spec.pathHash H k (sh H m (walk H m b xs).2) b.length (walk H m b xs).1 = sh H m b := by
  intro xs
  induction xs with
  | nil => intro b _; rfl
  | cons x xs ih =>
    intro b hk
    by_cases h : (ub b m).length ≤ 1
    · rw [walk_stop h]; rfl
    · have h2 : 2 ≤ (ub b m).length := by omega
      rw [walk_step h2]
      simp only [Spec.pathHash]
      have := ih (b ++ [x]) (by simpa using hk)
      rw [List.length_append, List.length_singleton] at this
      rw [this, sibNode_hash hm, ← (keyBits_split hk).1, combine_sh hm h2]

theorem bottomHash_ub {b : List Bool} (h : (ub b m).length ≤ 1) :
    Spec.bottomHash H (ub b m).head? = sh H m b := by
  rcases len_cases (ub b m) with h' | ⟨e, h'⟩ | h'
  · rw [h', sh_zero H h']; rfl
  · rw [h', sh_one H h']; rfl
  · omega

theorem leafHash_eq (l) : SMProof.leafHash H l = Spec.bottomHash H l := by cases l <;> rfl

theorem specProof_len (H : Hasher) (m : List Entry) (k : KeyHash) : (specProof H m k).siblings.length ≤ 256 := by
  have := walk_len_le (H := H) (m := m) [] (keyBits k)
  simpa [specProof] using this

theorem specProof_root (hm : NodupE m) :
    Spec.pathHash H k (Spec.bottomHash H (specProof H m k).leaf) 0 (specProof H m k).siblings.reverse = sh H m [] := by
  have := pathHash_walk (H := H) (k := k) hm (keyBits k) [] rfl
  unfold specProof
  simp only [List.reverse_reverse]
  rw [bottomHash_ub (walk_mem hm k).1]
  exact this

/-- `verify` unfolded. -/
theorem verify_iff {P : SMProof} {r : Digest} {k : KeyHash} {x : Option Value} :
    P.verify H r k x = .ok () ↔ P.siblings.length ≤ 256 ∧ P.checkLeaf H k x = .ok () ∧
      Spec.pathHash H k (Spec.bottomHash H P.leaf) 0 P.siblings.reverse = r := by
  unfold SMProof.verify
  by_cases h : P.siblings.length > 256
  · rw [if_pos h]
    constructor
    · intro h; cases h
    · intro hc; omega
  · rw [if_neg h]
    have hn : P.siblings.length ≤ 256 := by omega
    cases hc : P.checkLeaf H k x with
    | error e =>
      constructor
      · intro h; cases h
      · intro h; cases h.2.1
    | ok u =>
      rw [ok_bind, foldSiblings_eq H _ _ _ hn, leafHash_eq]
      by_cases hr : Spec.pathHash H k (Spec.bottomHash H P.leaf) 0 P.siblings.reverse = r
      · simp [hr, hn]
      · simp [hr]

/-- Completeness of existence proofs. -/
theorem specProof_verifies_existence (hm : NodupE m) {x : Value} (h : (k, H.hash x) ∈ m) :
    (specProof H m k).verify H (sh H m []) k (some x) = .ok () := by
  rw [verify_iff]
  refine ⟨specProof_len H m k, ?_, specProof_root hm⟩
  rw [← specProof_leaf_iff hm] at h
  unfold SMProof.checkLeaf
  rw [h]
  simp

/-- Completeness of non-existence proofs. -/
theorem specProof_verifies_nonexistence (hm : NodupE m) (h : ∀ vh, (k, vh) ∉ m) :
    (specProof H m k).verify H (sh H m []) k none = .ok () := by
  rw [verify_iff]
  refine ⟨specProof_len H m k, ?_, specProof_root hm⟩
  unfold SMProof.checkLeaf
  have hlen := specProof_len H m k
  unfold specProof at hlen ⊢
  simp only at hlen ⊢
  cases hl : (ub (walk H m [] (keyBits k)).2 m).head? with
  | none => rfl
  | some e =>
    have hmem := mem_ub.1 (List.mem_of_head? hl)
    have hne : k ≠ e.1 := by
      rintro rfl; exact h e.2 hmem.1
    simp only [hne, if_false]
    rw [if_neg]
    rw [Nat.not_lt, le_commonPrefixBitsLen (by simpa using hlen), List.length_reverse]
    have he := walk_end_eq (H := H) (m := m) [] (keyBits k)
    rw [List.nil_append] at he
    have h2 := hmem.2
    rw [he] at h2
    rw [List.prefix_iff_eq_take.1 h2, List.length_take]
    congr 1
    simp at hlen ⊢
    omega

/-! ### Soundness -/

/-- Strings hashed for the subtree below `b`. -/
def ts (H : Hasher) (m : List Entry) (b : List Bool) : List Spec.Preimage :=
  Spec.subtreeStrings H (256 - b.length) b.length (ub b m)

theorem ts_one {b : List Bool} {e : Entry} (h : ub b m = [e]) : ts H m b = [.leaf e.1 e.2] := by
  unfold ts; rw [h]; unfold Spec.subtreeStrings; rfl

theorem ts_two {b : List Bool} (hb : b.length < 256) (h : 2 ≤ (ub b m).length) :
    ts H m b = .internal (sh H m (b ++ [false])) (sh H m (b ++ [true])) ::
      (ts H m (b ++ [false]) ++ ts H m (b ++ [true])) := by
  unfold ts sh
  rw [ub_snoc hb, ub_snoc hb]
  match hu : ub b m with
  | [] => simp [hu] at h
  | [e] => simp [hu] at h
  | e :: e' :: t =>
    have : 256 - b.length = (256 - (b.length + 1)) + 1 := by omega
    rw [this]
    simp only [Spec.subtreeStrings, List.length_append, List.length_singleton]

/-- How a canonical subtree hash arises. -/
theorem sh_cases (hm : NodupE m) (H : Hasher) (b : List Bool) :
    (ub b m = [] ∧ sh H m b = placeholder) ∨
    (∃ e, ub b m = [e] ∧ sh H m b = (Spec.Preimage.leaf e.1 e.2).hash H ∧ .leaf e.1 e.2 ∈ ts H m b) ∨
    (2 ≤ (ub b m).length ∧
      sh H m b = (Spec.Preimage.internal (sh H m (b ++ [false])) (sh H m (b ++ [true]))).hash H ∧
      .internal (sh H m (b ++ [false])) (sh H m (b ++ [true])) ∈ ts H m b ∧
      ∀ x, ∀ p ∈ ts H m (b ++ [x]), p ∈ ts H m b) := by
  rcases len_cases (ub b m) with h | ⟨e, h⟩ | h
  · exact .inl ⟨h, sh_zero H h⟩
  · exact .inr (.inl ⟨e, h, sh_one H h, by rw [ts_one h]; simp⟩)
  · have hb := length_lt_of_two hm h
    refine .inr (.inr ⟨h, sh_two H hb h, by rw [ts_two hb h]; simp, ?_⟩)
    intro x p hp
    rw [ts_two hb h]
    cases x
    · simp [hp]
    · simp [hp]

theorem NoCollision.sub {ps qs : List Spec.Preimage} (h : Spec.NoCollision H ps) (hs : ∀ p ∈ qs, p ∈ ps) :
    Spec.NoCollision H qs :=
  ⟨fun a ha b hb => h.inj a (hs a ha) b (hs b hb), fun a ha => h.notPlaceholder a (hs a ha)⟩

/-- A path that hashes to a canonical subtree hash follows the canonical tree. -/
theorem path_sound (hm : NodupE m) {leaf : Option (KeyHash × ValueHash)} :
    ∀ (S : List SMNode) (b : List Bool), b.length + S.length ≤ 256 → b <+: keyBits k →
    Spec.pathHash H k (Spec.bottomHash H leaf) b.length S = sh H m b →
    Spec.NoCollision H (ts H m b ++ ((match leaf with | none => [] | some l => [Spec.Preimage.leaf l.1 l.2]) ++
      Spec.pathStrings H k (Spec.bottomHash H leaf) b.length S)) →
    ∃ b', b <+: b' ∧ b' <+: keyBits k ∧ b'.length = b.length + S.length ∧
      ub b' m = (match leaf with | none => [] | some l => [l]) := by
  intro S
  induction S with
  | nil =>
    intro b hlen hb heq hnc
    refine ⟨b, List.prefix_refl _, hb, rfl, ?_⟩
    simp only [Spec.pathHash] at heq
    cases leaf with
    | none =>
      simp only [Spec.bottomHash] at heq
      rcases sh_cases hm H b with ⟨h, -⟩ | ⟨e, h, h1, h2⟩ | ⟨h, h1, h2, -⟩
      · exact h
      · exact absurd (h1.symm.trans heq.symm) (hnc.notPlaceholder _ (by simp [h2]))
      · exact absurd (h1.symm.trans heq.symm) (hnc.notPlaceholder _ (by simp [h2]))
    | some l =>
      have hl : Spec.bottomHash H (some l) = (Spec.Preimage.leaf l.1 l.2).hash H := rfl
      rw [hl] at heq
      rcases sh_cases hm H b with ⟨h, h1⟩ | ⟨e, h, h1, h2⟩ | ⟨h, h1, h2, -⟩
      · exact absurd (heq.trans h1) (hnc.notPlaceholder _ (by simp))
      · have := hnc.inj _ (by simp) _ (by simp [h2]) (heq.trans h1)
        simp only [Spec.Preimage.leaf.injEq] at this
        rw [h]; simp [Prod.ext_iff, this]
      · have := hnc.inj _ (by simp) _ (by simp [h2]) (heq.trans h1)
        cases this
  | cons s S ih =>
    intro b hlen hb heq hnc
    have hbl : b.length < 256 := by simp at hlen; omega
    simp only [Spec.pathHash] at heq
    have hmemp : Spec.combine (Spec.bit k b.length) (s.hash H)
        (Spec.pathHash H k (Spec.bottomHash H leaf) (b.length + 1) S)
        ∈ Spec.pathStrings H k (Spec.bottomHash H leaf) b.length (s :: S) := by simp [Spec.pathStrings]
    have hmem' := List.mem_append_right (ts H m b) (List.mem_append_right
      (match leaf with | none => [] | some l => [Spec.Preimage.leaf l.1 l.2]) hmemp)
    have hint : ∃ l r, Spec.combine (Spec.bit k b.length) (s.hash H)
        (Spec.pathHash H k (Spec.bottomHash H leaf) (b.length + 1) S) = .internal l r := by
      unfold Spec.combine; cases Spec.bit k b.length <;> exact ⟨_, _, rfl⟩
    rcases sh_cases hm H b with ⟨h, h1⟩ | ⟨e, h, h1, h2⟩ | ⟨h, h1, h2, h3⟩
    · exact absurd (heq.trans h1) (hnc.notPlaceholder _ hmem')
    · have := hnc.inj _ hmem' _ (by simp [h2]) (heq.trans h1)
      obtain ⟨l, r, hlr⟩ := hint
      rw [hlr] at this; cases this
    · have hc := hnc.inj _ hmem' _ (by simp [h2]) (heq.trans h1)
      have hnext : Spec.pathHash H k (Spec.bottomHash H leaf) (b.length + 1) S
          = sh H m (b ++ [Spec.bit k b.length]) := by
        unfold Spec.combine at hc
        cases hbit : Spec.bit k b.length
        · rw [hbit] at hc; simp only [Bool.false_eq_true, if_false, Spec.Preimage.internal.injEq] at hc
          exact hc.1
        · rw [hbit] at hc; simp only [if_true, Spec.Preimage.internal.injEq] at hc
          exact hc.2
      obtain ⟨b', c1, c2, c3, c4⟩ := ih (b ++ [Spec.bit k b.length]) (by simp at hlen ⊢; omega)
        ((prefix_keyBits_snoc hbl).2 ⟨hb, rfl⟩) (by simpa using hnext) (by
          apply NoCollision.sub hnc
          intro p hp
          simp only [List.mem_append, List.length_append, List.length_singleton] at hp ⊢
          rcases hp with hp | hp | hp
          · exact .inl (h3 _ _ hp)
          · exact .inr (.inl hp)
          · right; right; simp [Spec.pathStrings, hp])
      exact ⟨b', (List.prefix_append _ _).trans c1, c2, by simp at c3 ⊢; omega, c4⟩

theorem verify_sound (hm : NodupE m) {P : SMProof} {x : Option Value}
    (hv : P.verify H (sh H m []) k x = .ok ())
    (hnc : Spec.NoCollision H (Spec.treeStrings H m ++ Spec.proofStrings H P k)) :
    ∃ b, b <+: keyBits k ∧ ub b m = (match P.leaf with | none => [] | some l => [l]) := by
  obtain ⟨h1, h2, h3⟩ := verify_iff.1 hv
  have ht : ts H m [] = Spec.treeStrings H m := by simp [ts, Spec.treeStrings]
  obtain ⟨b, -, c2, -, c4⟩ := path_sound hm (k := k) (leaf := P.leaf) P.siblings.reverse []
    (by simpa using h1) (List.nil_prefix) (by simpa using h3) (by rw [ht]; exact hnc)
  exact ⟨b, c2, c4⟩

theorem verifyExistence_sound (hm : NodupE m) {P : SMProof} {x : Value}
    (hv : P.verify H (sh H m []) k (some x) = .ok ())
    (hnc : Spec.NoCollision H (Spec.treeStrings H m ++ Spec.proofStrings H P k)) : (k, H.hash x) ∈ m := by
  obtain ⟨b, h1, h2⟩ := verify_sound hm hv hnc
  have hc := (verify_iff.1 hv).2.1
  unfold SMProof.checkLeaf at hc
  cases hl : P.leaf with
  | none => rw [hl] at hc; cases hc
  | some l =>
    rw [hl] at hc h2
    simp only at hc h2
    by_cases hk : k = l.1
    · rw [if_neg (by simpa using hk)] at hc
      by_cases hvv : H.hash x = l.2
      · have : l ∈ ub b m := by rw [h2]; simp
        rw [hk, hvv]; exact (mem_ub.1 this).1
      · rw [if_pos hvv] at hc; cases hc
    · rw [if_pos hk] at hc; cases hc

theorem verifyNonexistence_sound (hm : NodupE m) {P : SMProof}
    (hv : P.verify H (sh H m []) k none = .ok ())
    (hnc : Spec.NoCollision H (Spec.treeStrings H m ++ Spec.proofStrings H P k)) : ∀ vh, (k, vh) ∉ m := by
  obtain ⟨b, h1, h2⟩ := verify_sound hm hv hnc
  have hc := (verify_iff.1 hv).2.1
  intro vh hmem
  have : (k, vh) ∈ ub b m := mem_ub.2 ⟨hmem, h1⟩
  rw [h2] at this
  unfold SMProof.checkLeaf at hc
  cases hl : P.leaf with
  | none => rw [hl] at this; simp at this
  | some l =>
    rw [hl] at hc this
    simp only [List.mem_singleton] at hc this
    subst this
    simp at hc

/-- Equal canonical roots: equal entries. -/
theorem sh_binds {m' : List Entry} (hm : NodupE m) (hm' : NodupE m') :
    ∀ (n : Nat) (b : List Bool), 256 - b.length = n → sh H m b = sh H m' b →
    Spec.NoCollision H (ts H m b ++ ts H m' b) → (ub b m).Perm (ub b m') := by
  intro n
  induction n with
  | zero =>
    intro b hb heq hnc
    have l1 := ub_length_le_one hm (b := b) (by omega)
    have l2 := ub_length_le_one hm' (b := b) (by omega)
    rcases sh_cases hm H b with ⟨h, h1⟩ | ⟨e, h, h1, h2⟩ | ⟨h, h1, h2, -⟩ <;>
      rcases sh_cases hm' H b with ⟨g, g1⟩ | ⟨e', g, g1, g2⟩ | ⟨g, g1, g2, -⟩ <;> try omega
    · rw [h, g]
    · exact absurd (g1.symm.trans (heq.symm.trans h1)) (hnc.notPlaceholder _ (by simp [g2]))
    · exact absurd (h1.symm.trans (heq.trans g1)) (hnc.notPlaceholder _ (by simp [h2]))
    · have := hnc.inj _ (by simp [h2]) _ (by simp [g2]) (h1.symm.trans (heq.trans g1))
      simp only [Spec.Preimage.leaf.injEq] at this
      rw [h, g, Prod.ext this.1 this.2]
  | succ n ih =>
    intro b hb heq hnc
    have hbl : b.length < 256 := by omega
    rcases sh_cases hm H b with ⟨h, h1⟩ | ⟨e, h, h1, h2⟩ | ⟨h, h1, h2, h3⟩ <;>
      rcases sh_cases hm' H b with ⟨g, g1⟩ | ⟨e', g, g1, g2⟩ | ⟨g, g1, g2, g3⟩
    · rw [h, g]
    · exact absurd (g1.symm.trans (heq.symm.trans h1)) (hnc.notPlaceholder _ (by simp [g2]))
    · exact absurd (g1.symm.trans (heq.symm.trans h1)) (hnc.notPlaceholder _ (by simp [g2]))
    · exact absurd (h1.symm.trans (heq.trans g1)) (hnc.notPlaceholder _ (by simp [h2]))
    · have := hnc.inj _ (by simp [h2]) _ (by simp [g2]) (h1.symm.trans (heq.trans g1))
      simp only [Spec.Preimage.leaf.injEq] at this
      rw [h, g, Prod.ext this.1 this.2]
    · have := hnc.inj _ (by simp [h2]) _ (by simp [g2]) (h1.symm.trans (heq.trans g1))
      cases this
    · exact absurd (h1.symm.trans (heq.trans g1)) (hnc.notPlaceholder _ (by simp [h2]))
    · have := hnc.inj _ (by simp [h2]) _ (by simp [g2]) (h1.symm.trans (heq.trans g1))
      cases this
    · have hi := hnc.inj _ (List.mem_append_left _ h2) _ (List.mem_append_right _ g2)
        (h1.symm.trans (heq.trans g1))
      simp only [Spec.Preimage.internal.injEq] at hi
      have hstep : ∀ x, sh H m (b ++ [x]) = sh H m' (b ++ [x]) →
          (ub (b ++ [x]) m).Perm (ub (b ++ [x]) m') := fun x hx =>
        ih (b ++ [x]) (by simp; omega) hx (NoCollision.sub hnc (by
          intro p hp
          rw [List.mem_append] at hp ⊢
          exact hp.imp (h3 x p) (g3 x p)))
      exact (ub_split_perm hbl m).symm.trans
        (((hstep false hi.1).append (hstep true hi.2)).trans (ub_split_perm hbl m'))

theorem root_binds {m' : List Entry} (hm : NodupE m) (hm' : NodupE m') (h : sh H m [] = sh H m' [])
    (hnc : Spec.NoCollision H (Spec.treeStrings H m ++ Spec.treeStrings H m')) : m.Perm m' := by
  have := sh_binds hm hm' 256 [] rfl h (by simpa [ts, Spec.treeStrings] using hnc)
  simpa using this

end

/-! ### Byte strings -/

theorem preimage_bytes_inj {a b : Spec.Preimage} (h : a.bytes = b.bytes) : a = b := by
  have app : ∀ {x y x' y' : List UInt8}, x.length = x'.length → x ++ y = x' ++ y' → x = x' ∧ y = y' :=
    fun hl h => List.append_inj h hl
  cases a with
  | leaf k v => cases b with
    | leaf k' v' =>
      simp only [Spec.Preimage.bytes, List.append_assoc] at h
      have h1 := (app rfl h).2
      have := app (by rw [k.property, k'.property]) h1
      rw [Subtype.ext this.1, Subtype.ext this.2]
    | internal l r =>
      have := congrArg List.length h
      simp [Spec.Preimage.bytes, k.property, v.property, l.property, r.property, leafSep, internalSep] at this
  | internal l r => cases b with
    | leaf k v =>
      have := congrArg List.length h
      simp [Spec.Preimage.bytes, k.property, v.property, l.property, r.property, leafSep, internalSep] at this
    | internal l' r' =>
      simp only [Spec.Preimage.bytes, List.append_assoc] at h
      have h1 := (app rfl h).2
      have := app (by rw [l.property, l'.property]) h1
      rw [Subtype.ext this.1, Subtype.ext this.2]

theorem preimage_hash_ofDigest (f : List UInt8 → Digest) (p : Spec.Preimage) :
    p.hash (Hasher.ofDigest f) = f p.bytes := by
  cases p <;> simp [Spec.Preimage.hash, Spec.Preimage.bytes, Hasher.leafHash, Hasher.internalHash, Hasher.ofDigest]

end Jmt

namespace Jmt
open Spec (Entry)

theorem walk_last {H : Hasher} {m : List Entry} (hm : NodupE m) : ∀ (xs b : List Bool), b.length + xs.length = 256 →
    (walk H m b xs).1.getLast? ≠ some .null := by
  intro xs
  induction xs with
  | nil => intro b _; simp [walk]
  | cons x xs ih =>
    intro b hb
    by_cases h : (ub b m).length ≤ 1
    · rw [walk_stop h]; simp
    · have h2 : 2 ≤ (ub b m).length := by omega
      rw [walk_step h2]
      by_cases h3 : (ub (b ++ [x]) m).length ≤ 1
      · rw [walk_stop h3]
        simp only [List.getLast?_singleton]
        intro hc
        have hsplit := ub_split_length (b := b) (by simp at hb; omega) m
        have hne : 1 ≤ (ub (b ++ [!x]) m).length := by
          cases x <;> simp only [Bool.not_true, Bool.not_false] at * <;> omega
        rcases len_cases (ub (b ++ [!x]) m) with g | ⟨e, g⟩ | g
        · rw [g] at hne; simp at hne
        · rw [sibNode_one g] at hc; cases hc
        · rw [sibNode_two g] at hc; cases hc
      · have hne : (walk H m (b ++ [x]) xs).1 ≠ [] := by
          cases xs with
          | nil =>
            have := ub_length_le_one hm (b := b ++ [x]) (by simp at hb ⊢; omega)
            omega
          | cons a xs => rw [walk_step (by omega)]; simp
        rw [List.getLast?_cons_of_ne_nil hne]
        exact ih (b ++ [x]) (by simp at hb ⊢; omega)

theorem specProof_head {H : Hasher} {m : List Entry} (hm : NodupE m) (k : KeyHash) :
    (specProof H m k).siblings.head? ≠ some .null := by
  have := walk_last (H := H) hm (keyBits k) [] (by simp)
  simpa [specProof] using this

end Jmt
