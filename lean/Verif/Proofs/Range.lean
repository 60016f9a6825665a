import Verif.Proofs.Reach
import Verif.Proofs.Update
import Verif.Proofs.ProofSim
import Verif.Proofs.Exclusion
import Verif.Spec.Range
/-!
# Range proofs
-/
namespace Jmt
open Spec (Entry)

/-! ### Paths with plain digests as siblings -/

/-- Like `Spec.pathHash`, with digests as siblings. -/
def phD (H : Hasher) (key : KeyHash) (h : Digest) : (d : Nat) → List Digest → Digest
  | _, [] => h
  | d, s :: S => (Spec.combine (Spec.bit key d) s (phD H key h (d + 1) S)).hash H

def psD (H : Hasher) (key : KeyHash) (h : Digest) : (d : Nat) → List Digest → List Spec.Preimage
  | _, [] => []
  | d, s :: S => Spec.combine (Spec.bit key d) s (phD H key h (d + 1) S) :: psD H key h (d + 1) S

theorem phD_map (H : Hasher) (key : KeyHash) (h : Digest) (S : List SMNode) (d : Nat) :
    phD H key h d (S.map (SMNode.hash H)) = Spec.pathHash H key h d S := by
  induction S generalizing d with
  | nil => rfl
  | cons s S ih => simp only [List.map_cons, phD, Spec.pathHash, ih]

theorem phD_snoc (H : Hasher) (key : KeyHash) (h s : Digest) (S : List Digest) (d : Nat) :
    phD H key h d (S ++ [s]) = phD H key ((Spec.combine (Spec.bit key (d + S.length)) s h).hash H) d S := by
  induction S generalizing d with
  | nil => rfl
  | cons a S ih =>
    simp only [List.cons_append, phD, ih, List.length_cons]
    rw [show d + 1 + S.length = d + (S.length + 1) by omega]

theorem psD_snoc (H : Hasher) (key : KeyHash) (h s : Digest) (S : List Digest) (d : Nat) :
    psD H key h d (S ++ [s]) = psD H key ((Spec.combine (Spec.bit key (d + S.length)) s h).hash H) d S ++
      [Spec.combine (Spec.bit key (d + S.length)) s h] := by
  induction S generalizing d with
  | nil => rfl
  | cons a S ih =>
    simp only [List.cons_append, psD, ih, phD_snoc, List.length_cons]
    rw [show d + 1 + S.length = d + (S.length + 1) by omega]

/-- The bits of `k` at depths `n-1, .., 0`. -/
def bitsUp (k : KeyHash) (n : Nat) : List Bool := ((List.range n).map (Spec.bit k)).reverse

theorem bitsUp_succ (k : KeyHash) (n : Nat) : bitsUp k (n + 1) = Spec.bit k n :: bitsUp k n := by
  unfold bitsUp; rw [List.range_succ]; simp

theorem bitsUp_eq (k : KeyHash) {n : Nat} (hn : n ≤ 256) :
    (Bytes32.iterBits k).reverse.drop (256 - n) = bitsUp k n := by
  rw [List.drop_reverse, iterBits_eq, keyBits_length, show 256 - (256 - n) = n by omega, keyBits_take k hn]
  rfl

/-- The elements at the depths where the bit is `b`, bottom first. -/
def pick {α : Type} (k : KeyHash) (b : Bool) : (d : Nat) → List α → List α
  | _, [] => []
  | d, s :: S => pick k b (d + 1) S ++ (if Spec.bit k d = b then [s] else [])

theorem pick_snoc {α : Type} (k : KeyHash) (b : Bool) (s : α) (S : List α) (d : Nat) :
    pick k b d (S ++ [s]) = (if Spec.bit k (d + S.length) = b then [s] else []) ++ pick k b d S := by
  induction S generalizing d with
  | nil => simp [pick]
  | cons a S ih =>
    simp only [List.cons_append, pick, ih, List.length_cons, List.append_assoc]
    rw [show d + 1 + S.length = d + (S.length + 1) by omega]

theorem pick_map {α β : Type} (f : α → β) (k : KeyHash) (b : Bool) (S : List α) (d : Nat) :
    pick k b d (S.map f) = (pick k b d S).map f := by
  induction S generalizing d with
  | nil => rfl
  | cons a S ih =>
    simp only [List.map_cons, pick, ih, List.map_append]
    split <;> rfl

theorem pick_length {α : Type} (k : KeyHash) (S : List α) (d : Nat) :
    (pick k true d S).length + (pick k false d S).length = S.length := by
  induction S generalizing d with
  | nil => rfl
  | cons a S ih =>
    simp only [pick, List.length_append, List.length_cons]
    have := ih (d + 1)
    cases Spec.bit k d <;> simp <;> omega

theorem pick_take (k : KeyHash) (b : Bool) {α : Type} : ∀ (S : List α) (d : Nat), d + S.length ≤ 256 →
    ((S.zip ((keyBits k).drop d)).filterMap (fun e => if e.2 = b then some e.1 else none)).reverse = pick k b d S := by
  intro S
  induction S with
  | nil => intro d _; rfl
  | cons s S ih =>
    intro d hd
    have hlt : d < (keyBits k).length := by simp at hd ⊢; omega
    have hget : (keyBits k)[d] = Spec.bit k d := by
      have := keyBits_getElem? k d (by simpa using hlt)
      rw [List.getElem?_eq_getElem hlt] at this
      exact Option.some.inj this
    rw [List.drop_eq_getElem_cons hlt, hget]
    simp only [List.zip_cons_cons, pick]
    rw [← ih (d + 1) (by simp at hd ⊢; omega)]
    by_cases h : Spec.bit k d = b
    · simp [h]
    · simp [h]

theorem rightSiblingsOf_eq (k : KeyHash) (sibs : List SMNode) (h : sibs.length ≤ 256) :
    rightSiblingsOf sibs k = pick k false 0 sibs.reverse := by
  rw [← pick_take k false sibs.reverse 0 (by simpa using h)]
  unfold rightSiblingsOf
  rw [iterBits_eq, List.drop_zero]
  congr 2
  funext e
  cases e.2 <;> rfl

/-- What the loop of the range proof check computes when it succeeds with all siblings used. -/
theorem verifyLoop_inv (H : Hasher) (k : KeyHash) : ∀ (D : Nat) (ls : List Digest) (rs : List SMNode) (cur c : Digest),
    ls.length + rs.length = D → RangeProof.verifyLoop H (bitsUp k D) ls rs cur = .ok c →
    ∃ S : List Digest, S.length = D ∧ c = phD H k cur 0 S ∧ pick k true 0 S = ls ∧
      pick k false 0 S = rs.map (SMNode.hash H) ∧
      psD H k cur 0 S = (Spec.climbStrings H (bitsUp k D) ls rs cur).reverse := by
  intro D
  induction D with
  | zero =>
    intro ls rs cur c hl h
    have h1 : ls = [] := List.length_eq_zero_iff.1 (by omega)
    have h2 : rs = [] := List.length_eq_zero_iff.1 (by omega)
    subst h1; subst h2
    cases h
    exact ⟨[], rfl, rfl, rfl, rfl, rfl⟩
  | succ D ih =>
    intro ls rs cur c hl h
    rw [bitsUp_succ] at h ⊢
    cases hb : Spec.bit k D with
    | true =>
      rw [hb] at h
      cases ls with
      | nil => cases h
      | cons l ls =>
        obtain ⟨S, s1, s2, s3, s4, s5⟩ := ih ls rs _ c (by simp at hl; omega) h
        refine ⟨S ++ [l], by simp [s1], ?_, ?_, ?_, ?_⟩
        · rw [phD_snoc, s1, Nat.zero_add, hb]; exact s2
        · rw [pick_snoc, s1, Nat.zero_add, hb, s3]; simp
        · rw [pick_snoc, s1, Nat.zero_add, hb, s4]; simp
        · rw [psD_snoc, s1, Nat.zero_add, hb]
          simp only [Spec.climbStrings, List.reverse_cons]
          exact congrArg (· ++ _) s5
    | false =>
      rw [hb] at h
      cases rs with
      | nil => cases ls <;> cases h
      | cons r rs =>
        have h' : RangeProof.verifyLoop H (bitsUp k D) ls rs (H.internalHash cur (r.hash H)) = .ok c := by
          cases ls <;> exact h
        obtain ⟨S, s1, s2, s3, s4, s5⟩ := ih ls rs _ c (by simp at hl; omega) h'
        refine ⟨S ++ [r.hash H], by simp [s1], ?_, ?_, ?_, ?_⟩
        · rw [phD_snoc, s1, Nat.zero_add, hb]; exact s2
        · rw [pick_snoc, s1, Nat.zero_add, hb, s3]; simp
        · rw [pick_snoc, s1, Nat.zero_add, hb, s4]; simp
        · rw [psD_snoc, s1, Nat.zero_add, hb]
          have : Spec.climbStrings H (false :: bitsUp k D) ls (r :: rs) cur = .internal cur (r.hash H) ::
              Spec.climbStrings H (bitsUp k D) ls rs (H.internalHash cur (r.hash H)) := by
            cases ls <;> rfl
          rw [this, List.reverse_cons]
          exact congrArg (· ++ _) s5

theorem verifyLoop_ok (H : Hasher) (k : KeyHash) : ∀ (D : Nat) (S : List Digest) (rs : List SMNode) (cur : Digest),
    S.length = D → pick k false 0 S = rs.map (SMNode.hash H) →
    RangeProof.verifyLoop H (bitsUp k D) (pick k true 0 S) rs cur = .ok (phD H k cur 0 S) := by
  intro D
  induction D with
  | zero =>
    intro S rs cur hl h
    have := List.length_eq_zero_iff.1 hl
    subst this
    rfl
  | succ D ih =>
    intro S rs cur hl h
    obtain ⟨S, s, rfl⟩ : ∃ S' s, S = S' ++ [s] := by
      have hne : S ≠ [] := by intro hc; rw [hc] at hl; simp at hl
      exact ⟨S.dropLast, S.getLast hne, (List.dropLast_concat_getLast hne).symm⟩
    have hl' : S.length = D := by simpa using hl
    rw [bitsUp_succ, phD_snoc]
    rw [pick_snoc] at h ⊢
    rw [hl', Nat.zero_add] at h ⊢
    cases hb : Spec.bit k D with
    | true =>
      rw [hb] at h
      simp only [if_true, List.singleton_append]
      exact ih S rs _ hl' (by simpa using h)
    | false =>
      rw [hb] at h
      simp only [if_true, List.singleton_append] at h
      cases rs with
      | nil => simp at h
      | cons r rs =>
        simp only [List.map_cons, List.cons.injEq] at h
        have := ih S rs (H.internalHash cur (r.hash H)) hl' h.2
        rw [h.1]
        simp only [Bool.false_eq_true, if_false, List.nil_append]
        cases hp : pick k true 0 S with
        | nil => rw [hp] at this; exact this
        | cons a t => rw [hp] at this; exact this

/-! ### Soundness of a path with digests -/

section
variable {H : Hasher} {m : List Entry} {k : KeyHash}

/-- The canonical sibling hash at depth `d` of the path of `k`. -/
def csib (H : Hasher) (m : List Entry) (k : KeyHash) (d : Nat) : Digest :=
  sh H m ((keyBits k).take d ++ [!Spec.bit k d])

theorem csibs_cons (d n : Nat) : (List.range' d (n + 1)).map (csib H m k) =
    csib H m k d :: (List.range' (d + 1) n).map (csib H m k) := by
  rw [List.range'_succ]; rfl

/-- A path that hashes to a canonical subtree hash follows the canonical tree, with the canonical siblings. -/
theorem path_soundD (hm : NodupE m) {leaf : KeyHash × ValueHash} :
    ∀ (S : List Digest) (b : List Bool), b.length + S.length ≤ 256 → b <+: keyBits k →
    phD H k (H.leafHash leaf.1 leaf.2) b.length S = sh H m b →
    Spec.NoCollision H (ts H m b ++ (Spec.Preimage.leaf leaf.1 leaf.2 :: psD H k (H.leafHash leaf.1 leaf.2) b.length S)) →
    (ub ((keyBits k).take (b.length + S.length)) m = [leaf]) ∧ S = (List.range' b.length S.length).map (csib H m k) := by
  intro S
  induction S with
  | nil =>
    intro b hlen hb heq hnc
    refine ⟨?_, rfl⟩
    have hbt : (keyBits k).take (b.length + ([] : List Digest).length) = b := by
      simpa using (List.prefix_iff_eq_take.1 hb).symm
    rw [hbt]
    simp only [phD] at heq
    have hl : H.leafHash leaf.1 leaf.2 = (Spec.Preimage.leaf leaf.1 leaf.2).hash H := rfl
    rw [hl] at heq
    rcases sh_cases hm H b with ⟨h, h1⟩ | ⟨e, h, h1, h2⟩ | ⟨h, h1, h2, -⟩
    · exact absurd (heq.trans h1) (hnc.notPlaceholder _ (by simp))
    · have := hnc.inj _ (by simp) _ (by simp [h2]) (heq.trans h1)
      simp only [Spec.Preimage.leaf.injEq] at this
      rw [h]; simp [Prod.ext_iff, this]
    · have := hnc.inj _ (by simp) _ (by simp [h2]) (heq.trans h1)
      cases this
  | cons s S ih =>
    intro b hlen hb heq hnc
    have hbl : b.length < 256 := by simp at hlen; omega
    simp only [phD] at heq
    have hmem' : Spec.combine (Spec.bit k b.length) s (phD H k (H.leafHash leaf.1 leaf.2) (b.length + 1) S) ∈
        ts H m b ++ (Spec.Preimage.leaf leaf.1 leaf.2 :: psD H k (H.leafHash leaf.1 leaf.2) b.length (s :: S)) := by
      simp [psD]
    have hint : ∃ l r, Spec.combine (Spec.bit k b.length) s
        (phD H k (H.leafHash leaf.1 leaf.2) (b.length + 1) S) = .internal l r := by
      unfold Spec.combine; cases Spec.bit k b.length <;> exact ⟨_, _, rfl⟩
    rcases sh_cases hm H b with ⟨h, h1⟩ | ⟨e, h, h1, h2⟩ | ⟨h, h1, h2, h3⟩
    · exact absurd (heq.trans h1) (hnc.notPlaceholder _ hmem')
    · have := hnc.inj _ hmem' _ (by simp [h2]) (heq.trans h1)
      obtain ⟨l, r, hlr⟩ := hint
      rw [hlr] at this; cases this
    · have hc := hnc.inj _ hmem' _ (by simp [h2]) (heq.trans h1)
      have hnext : phD H k (H.leafHash leaf.1 leaf.2) (b.length + 1) S = sh H m (b ++ [Spec.bit k b.length]) ∧
          s = sh H m (b ++ [!Spec.bit k b.length]) := by
        unfold Spec.combine at hc
        cases hbit : Spec.bit k b.length
        · rw [hbit] at hc; simp only [Bool.false_eq_true, if_false, Spec.Preimage.internal.injEq] at hc
          exact hc
        · rw [hbit] at hc; simp only [if_true, Spec.Preimage.internal.injEq] at hc
          exact ⟨hc.2, hc.1⟩
      obtain ⟨c1, c2⟩ := ih (b ++ [Spec.bit k b.length]) (by simp at hlen ⊢; omega)
        ((prefix_keyBits_snoc hbl).2 ⟨hb, rfl⟩) (by simpa using hnext.1) (by
          apply NoCollision.sub hnc
          intro p hp
          simp only [List.mem_append, List.mem_cons, List.length_append, List.length_singleton] at hp ⊢
          rcases hp with hp | hp | hp
          · exact .inl (h3 _ _ hp)
          · exact .inr (.inl hp)
          · right; right; simp [psD, hp])
      rw [List.length_append, List.length_singleton] at c1 c2
      refine ⟨?_, ?_⟩
      · rw [List.length_cons, show b.length + (S.length + 1) = b.length + 1 + S.length by omega]; exact c1
      · rw [List.length_cons, csibs_cons, ← c2]
        congr 1
        rw [hnext.2]
        unfold csib
        rw [← List.prefix_iff_eq_take.1 hb]

/-! ### Left siblings depend on the smaller keys only -/

theorem leftEntries_eq {d : Nat} (hd : d < 256) : Spec.leftEntries m k d = ub ((keyBits k).take d ++ [false]) m := by
  unfold Spec.leftEntries ub
  apply List.filter_congr
  intro e _
  rw [Bool.eq_iff_iff, List.isPrefixOf_iff_prefix,
    prefix_keyBits_snoc (by simp; omega), Bool.and_eq_true, List.all_eq_true]
  have hl : ((keyBits k).take d).length = d := by simp; omega
  rw [hl, List.prefix_iff_eq_take, hl, keyBits_take k (by omega), keyBits_take e.1 (by omega)]
  simp only [List.mem_range, beq_iff_eq, List.map_inj_left]
  exact and_congr ⟨fun h a ha => (h a ha).symm, fun h a ha => (h a ha).symm⟩ Iff.rfl

theorem leftHash_eq {d : Nat} (hd : d < 256) (hb : Spec.bit k d = true) : Spec.leftHash H m k d = csib H m k d := by
  unfold Spec.leftHash csib sh
  rw [leftEntries_eq hd, hb]
  have hl : ((keyBits k).take d ++ [!true]).length = d + 1 := by simp; omega
  rw [hl]
  rfl

theorem leftHashes_succ (n : Nat) : Spec.leftHashes H m k (n + 1) =
    (if Spec.bit k n = true then [Spec.leftHash H m k n] else []) ++ Spec.leftHashes H m k n := by
  unfold Spec.leftHashes
  rw [List.range_succ, List.filter_append, List.map_append, List.reverse_append]
  by_cases h : Spec.bit k n = true
  · simp [h]
  · simp [h]

/-- The left siblings among the canonical siblings. -/
theorem pick_csibs : ∀ {n : Nat}, n ≤ 256 → pick k true 0 ((List.range n).map (csib H m k)) = Spec.leftHashes H m k n := by
  intro n
  induction n with
  | zero => intro _; rfl
  | succ n ih =>
    intro hn
    rw [List.range_succ, List.map_append, List.map_singleton, pick_snoc, ih (by omega), leftHashes_succ]
    simp only [List.length_map, List.length_range, Nat.zero_add]
    by_cases h : Spec.bit k n = true
    · rw [if_pos h, if_pos h, leftHash_eq (by omega) h]
    · rw [if_neg h, if_neg h]

theorem append_lt (l : List Bool) {a b : List Bool} (h : a < b) : l ++ a < l ++ b := by
  induction l with
  | nil => exact h
  | cons x l ih => simp [List.cons_lt_cons_iff, ih]

/-- Entries to the left of the path are smaller. -/
theorem left_lt {d : Nat} (hd : d < 256) (hb : Spec.bit k d = true) {e : Entry}
    (he : e ∈ Spec.leftEntries m k d) : e.1.val < k.val := by
  rw [leftEntries_eq hd, mem_ub] at he
  have hl : ((keyBits k).take d).length = d := by simp; omega
  have hk : (keyBits k).take d ++ [true] <+: keyBits k :=
    (prefix_keyBits_snoc (by omega)).2 ⟨List.take_prefix _ _, by rw [hl]; exact hb⟩
  obtain ⟨t, ht⟩ := he.2
  obtain ⟨u, hu⟩ := hk
  rw [← keyBits_lt]
  generalize (keyBits k).take d = b at ht hu
  rw [← ht, ← hu, List.append_assoc, List.append_assoc]
  refine append_lt _ ?_
  exact List.cons_lt_cons_iff.2 (.inl (by decide))

theorem leftEntries_filter {d : Nat} (hd : d < 256) (hb : Spec.bit k d = true) (P : Entry → Bool)
    (hP : ∀ e ∈ m, e.1.val < k.val → P e = true) : Spec.leftEntries (m.filter P) k d = Spec.leftEntries m k d := by
  have h : (Spec.leftEntries m k d).filter P = Spec.leftEntries m k d := by
    rw [List.filter_eq_self]
    intro e he
    exact hP e (List.mem_filter.1 he).1 (left_lt hd hb he)
  rw [← h]
  unfold Spec.leftEntries
  rw [List.filter_filter, List.filter_filter]
  apply List.filter_congr
  intro e _
  rw [Bool.and_comm]

theorem leftHashes_filter (P : Entry → Bool) (hP : ∀ e ∈ m, e.1.val < k.val → P e = true) {n : Nat} (hn : n ≤ 256) :
    Spec.leftHashes H (m.filter P) k n = Spec.leftHashes H m k n := by
  unfold Spec.leftHashes
  congr 1
  apply List.map_congr_left
  intro d hd
  rw [List.mem_filter, List.mem_range] at hd
  unfold Spec.leftHash
  rw [leftEntries_filter (by omega) hd.2 P hP]

/-! ### The siblings of the canonical proof -/

theorem walk_csibs (hm : NodupE m) : ∀ (xs b : List Bool), b ++ xs = keyBits k →
    (walk H m b xs).1.map (SMNode.hash H) = (List.range' b.length (walk H m b xs).1.length).map (csib H m k) := by
  intro xs
  induction xs with
  | nil => intro b _; rfl
  | cons x xs ih =>
    intro b hk
    by_cases h : (ub b m).length ≤ 1
    · rw [walk_stop h]; rfl
    · rw [walk_step (by omega)]
      simp only [List.map_cons, List.length_cons]
      rw [csibs_cons, sibNode_hash hm]
      have := ih (b ++ [x]) (by simpa using hk)
      rw [List.length_append, List.length_singleton] at this
      rw [this]
      congr 1
      have hb : b <+: keyBits k := ⟨_, hk⟩
      unfold csib
      rw [← List.prefix_iff_eq_take.1 hb, (keyBits_split hk).1]

/-- Completeness: the right siblings of the canonical proof with the canonical left siblings. -/
theorem range_complete (hm : NodupE m) {vh : ValueHash} (hmem : (k, vh) ∈ m) (checked : Bool) :
    (RangeProof.mk (rightSiblingsOf (specProof H m k).siblings k)).verify H checked (sh H m []) (k, vh)
      (Spec.leftHashes H m k (specProof H m k).siblings.length) = .ok () := by
  have hlen := specProof_len H m k
  have hS := walk_csibs (H := H) (k := k) hm (keyBits k) [] rfl
  have hroot := specProof_root (H := H) (k := k) hm
  rw [(specProof_leaf_iff hm k vh).2 hmem] at hroot
  unfold specProof at hlen hroot ⊢
  simp only [List.reverse_reverse, List.length_reverse, List.length_nil] at hlen hroot hS ⊢
  generalize hW : (walk H m [] (keyBits k)).1 = W at hlen hroot hS ⊢
  rw [rightSiblingsOf_eq k _ (by simpa using hlen), List.reverse_reverse]
  rw [← List.range_eq_range'] at hS
  rw [← pick_csibs hlen, ← hS]
  have hn : (pick k true 0 (W.map (SMNode.hash H))).length + (pick k false 0 W).length = W.length := by
    rw [pick_map, List.length_map, pick_length]
  unfold RangeProof.verify usub
  simp only
  rw [hn, if_pos hlen, ok_bind]
  simp only [bitsUp_eq k hlen]
  rw [verifyLoop_ok H k W.length (W.map (SMNode.hash H)) (pick k false 0 W) _ (by simp) (pick_map _ _ _ _ _), ok_bind,
    phD_map]
  rw [if_neg]
  exact not_not_intro hroot

/-- Soundness. -/
theorem range_sound (hm : NodupE m) {P : RangeProof} {vh : ValueHash} {checked : Bool} {ls : List Digest}
    (hv : P.verify H checked (sh H m []) (k, vh) ls = .ok ()) (hmach : ls.length + P.rightSiblings.length < 2 ^ 64)
    (hnc : Spec.NoCollision H (Spec.treeStrings H m ++ Spec.rangeStrings H P.rightSiblings (k, vh) ls)) :
    (k, vh) ∈ m ∧ (ls.length + P.rightSiblings.length ≤ 256 →
      ls = Spec.leftHashes H m k (ls.length + P.rightSiblings.length) ∧
      ub ((keyBits k).take (ls.length + P.rightSiblings.length)) m = [(k, vh)]) := by
  have ht : ts H m [] = Spec.treeStrings H m := by simp [ts, Spec.treeStrings]
  unfold RangeProof.verify at hv
  by_cases hlen : ls.length + P.rightSiblings.length ≤ 256
  · have hu : usub checked 256 (ls.length + P.rightSiblings.length) = .ok (256 - (ls.length + P.rightSiblings.length)) := by
      unfold usub; rw [if_pos hlen]
    rw [hu, ok_bind] at hv
    simp only [bitsUp_eq k hlen] at hv
    obtain ⟨c, hc, hv⟩ := bind_ok_inv hv
    obtain ⟨S, s1, s2, s3, s4, s5⟩ := verifyLoop_inv H k _ _ _ _ _ rfl hc
    by_cases hne : c = sh H m []
    · rw [hne] at s2
      obtain ⟨p1, p2⟩ := path_soundD hm (k := k) (leaf := (k, vh)) S [] (by simpa [s1] using hlen) List.nil_prefix
        s2.symm (by
          apply NoCollision.sub hnc
          intro p hp
          rw [ht] at hp
          simp only [List.length_nil] at hp
          rw [s5] at hp
          simp only [Spec.rangeStrings, List.mem_append, List.mem_cons, List.mem_reverse] at hp ⊢
          exact hp)
      simp only [List.length_nil, Nat.zero_add, s1] at p1 p2
      have hm1 : (k, vh) ∈ ub ((keyBits k).take (ls.length + P.rightSiblings.length)) m := by rw [p1]; simp
      refine ⟨(mem_ub.1 hm1).1, fun _ => ⟨?_, p1⟩⟩
      rw [← List.range_eq_range'] at p2
      rw [← pick_csibs hlen, ← p2]
      exact s3.symm
    · rw [if_pos hne] at hv; cases hv
  · refine ⟨?_, fun h => absurd h hlen⟩
    cases checked with
    | true => unfold usub at hv; rw [if_neg hlen] at hv; cases hv
    | false =>
      unfold usub at hv
      rw [if_neg hlen] at hv
      simp only [Bool.false_eq_true, if_false, ok_bind] at hv
      rw [List.drop_eq_nil_of_le] at hv
      · simp only [RangeProof.verifyLoop, ok_bind] at hv
        by_cases hne : H.leafHash k vh = sh H m []
        · obtain ⟨p1, -⟩ := path_soundD hm (k := k) (leaf := (k, vh)) [] [] (by simp) List.nil_prefix hne (by
            apply NoCollision.sub hnc
            intro p hp
            rw [ht] at hp
            simp only [psD, List.mem_append, List.mem_singleton, Spec.rangeStrings, List.mem_cons] at hp ⊢
            rcases hp with hp | hp | hp
            · exact .inl hp
            · exact .inr (.inl hp)
            · simp at hp)
          exact (mem_ub.1 (p1 ▸ List.mem_singleton_self _)).1
        · rw [if_pos hne] at hv; cases hv
      · simp [Bytes32.iterBits]
        unfold u64Size
        omega

end
end Jmt
