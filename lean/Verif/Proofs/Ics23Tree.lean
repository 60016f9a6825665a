import Verif.Proofs.Ics23Verify
import Verif.Proofs.Exclusion
import Verif.Proofs.Range
/-!
# The ics23 path of a key of the canonical tree, binding, and adjacency
-/
namespace Jmt
open Spec (Entry)
open Ics23 (InnerOp ensure)

variable {H : Hasher} {m : List Entry} {k : KeyHash}

/-- The steps from prefix `b` along the bits `xs`: the bit and the hash of the sibling, top first. -/
def hops (H : Hasher) (m : List Entry) : (b xs : List Bool) → List (Bool × Digest)
  | _, [] => []
  | b, x :: xs => if (ub b m).length ≤ 1 then [] else (x, sh H m (b ++ [!x])) :: hops H m (b ++ [x]) xs

theorem hops_walk (hm : NodupE m) : ∀ (xs b : List Bool),
    hops H m b xs = List.zipWith (fun x (s : SMNode) => (x, s.hash H)) xs (walk H m b xs).1 := by
  intro xs
  induction xs with
  | nil => intro b; rfl
  | cons x xs ih =>
    intro b
    unfold hops walk
    by_cases h : (ub b m).length ≤ 1
    · simp [h]
    · simp only [if_neg h, List.zipWith_cons_cons, sibNode_hash hm, ih]

theorem hops_append_stop : ∀ (xs ys b : List Bool), (ub (b ++ xs) m).length ≤ 1 →
    hops H m b (xs ++ ys) = hops H m b xs := by
  intro xs
  induction xs with
  | nil =>
    intro ys b h
    cases ys with
    | nil => rfl
    | cons y ys => simp only [List.append_nil] at h; simp [hops, h]
  | cons x xs ih =>
    intro ys b h
    rw [List.cons_append]
    unfold hops
    by_cases h1 : (ub b m).length ≤ 1
    · rw [if_pos h1, if_pos h1]
    · rw [if_neg h1, if_neg h1, ih ys (b ++ [x]) (by rw [List.append_assoc]; exact h)]

/-! ### The conversion -/

theorem ics23Bits_eq (k : KeyHash) : ics23Bits k = (keyBits k).reverse := by
  have h := keyBits_take k (Nat.le_refl 256)
  rw [List.take_of_length_le (by simp)] at h
  rw [h, ← List.map_reverse]
  have e1 : ics23Bits k = ((List.range 32).reverse.flatMap (fun byte => (List.range 8).map (fun b => (byte, b)))).map
      (fun p : Nat × Nat => (k.val.getD p.1 0).toNat.testBit p.2) := by
    unfold ics23Bits
    rw [List.map_flatMap]
    simp only [List.map_map]
    rfl
  have e2 : (List.range 256).reverse.map (Spec.bit k) = ((List.range 256).reverse.map (fun i => (i / 8, 7 - i % 8))).map
      (fun p : Nat × Nat => (k.val.getD p.1 0).toNat.testBit p.2) := by
    rw [List.map_map]; rfl
  have e3 : (List.range 32).reverse.flatMap (fun byte => (List.range 8).map (fun b => (byte, b))) =
      (List.range 256).reverse.map (fun i => (i / 8, 7 - i % 8)) := by decide +kernel
  rw [e1, e2, e3]

theorem ics23Inner_eq (b : Bool) (s : SMNode) : ics23Inner H b s = iop (b, s.hash H) := by cases b <;> rfl

theorem ics23Path_eq (sibs : List SMNode) : ∀ (bits : List Bool) (skip idx : Nat), bits.length + idx ≤ skip + sibs.length →
    ics23Path H sibs bits skip idx = .ok (List.zipWith (fun b (s : SMNode) => iop (b, s.hash H)) (bits.drop skip) (sibs.drop idx)) := by
  intro bits
  induction bits with
  | nil => intro skip idx _; simp [ics23Path]
  | cons b bits ih =>
    intro skip idx h
    simp only [List.length_cons] at h
    cases skip with
    | succ skip =>
      rw [ics23Path, ih skip idx (by omega)]
      simp
    | zero =>
      rw [ics23Path]
      have hlt : idx < sibs.length := by omega
      rw [List.getElem?_eq_getElem hlt]
      simp only
      rw [ih 0 (idx + 1) (by omega), ok_bind, List.drop_zero, List.drop_zero, List.drop_eq_getElem_cons hlt,
        List.zipWith_cons_cons, ics23Inner_eq]

/-- The conversion of a proof with at most 256 siblings. -/
theorem ics23Existence_eq (checked : Bool) (key value : List UInt8) (P : SMProof) (hn : P.siblings.length ≤ 256) :
    ics23Existence H checked key value P = .ok ⟨key, value, some ics23LeafOp,
      ((List.zipWith (fun x (s : SMNode) => (x, s.hash H)) (keyBits (H.hash key)) P.siblings.reverse).map iop).reverse⟩ := by
  unfold ics23Existence usub
  rw [if_pos hn, ok_bind, ics23Path_eq _ _ _ _ (by rw [ics23Bits_eq]; simp; omega), ok_bind]
  congr 2
  rw [ics23Bits_eq, List.drop_zero, List.drop_reverse, keyBits_length, List.map_zipWith]
  have e : List.zipWith (fun a (s : SMNode) => iop (a, s.hash H)) (keyBits (H.hash key)) P.siblings.reverse =
      List.zipWith (fun a (s : SMNode) => iop (a, s.hash H)) ((keyBits (H.hash key)).take P.siblings.length) P.siblings.reverse := by
    conv => lhs; rw [List.zipWith_eq_zipWith_take_min]
    rw [List.length_reverse, keyBits_length, Nat.min_eq_right hn,
      List.take_of_length_le (l := P.siblings.reverse) (by simp)]
  rw [e, List.reverse_zipWith (by simp; omega), List.reverse_reverse]
  congr 3
  omega

/-- Climbing the converted path is climbing the siblings. -/
theorem up_iops (f : List UInt8 → Digest) (key : KeyHash) (h : Digest) : ∀ (S : List SMNode) (d : Nat) (xs : List Bool),
    xs = (keyBits key).drop d → d + S.length ≤ 256 →
    up f h ((List.zipWith (fun x (s : SMNode) => (x, s.hash (.ofDigest f))) xs S).map iop) =
      Spec.pathHash (.ofDigest f) key h d S := by
  intro S
  induction S with
  | nil => intro d xs _ _; simp [up, Spec.pathHash]
  | cons s S ih =>
    intro d xs hxs hd
    simp only [List.length_cons] at hd
    have hlt : d < (keyBits key).length := by simp; omega
    rw [List.drop_eq_getElem_cons hlt] at hxs
    subst hxs
    rw [List.zipWith_cons_cons, List.map_cons, Spec.pathHash, ← ih (d + 1) _ rfl (by omega)]
    have hb : (keyBits key)[d] = Spec.bit key d := by
      have := keyBits_getElem? key d (by omega)
      rw [List.getElem?_eq_getElem hlt] at this
      exact Option.some.inj this
    rw [hb]
    show istep f _ (up f h _) = _
    rw [preimage_hash_ofDigest]
    unfold istep Spec.combine iop
    cases Spec.bit key d <;> simp [Spec.Preimage.bytes]

/-! ### Binding: an accepted path is the path of the tree -/

theorem Ics23.NoCollision.sub {f : List UInt8 → Digest} {ss ts : List (List UInt8)} (h : Ics23.NoCollision f ss) (hs : ∀ a ∈ ts, a ∈ ss) : Ics23.NoCollision f ts :=
  ⟨fun a ha b hb => h.inj a (hs a ha) b (hs b hb), fun a ha => h.notPlaceholder a (hs a ha)⟩

theorem leafSep_ne_internal (x y : List UInt8) : leafSep ++ x ≠ internalSep ++ y := by
  intro h
  have := congrArg (fun l : List UInt8 => l[5]?) h
  simp [leafSep, internalSep] at this

theorem ics_bind {f : List UInt8 → Digest} (hm : NodupE m) {fk fv : Digest} {ext : List UInt8} :
    ∀ (O : List InnerOp) (b : List Bool), (∀ i ∈ O, Ics23.ensureInner i ics23Spec = .ok ()) →
    up f (f (leafSep ++ ext ++ fk.val ++ fv.val)) O = sh (.ofDigest f) m b →
    Ics23.NoCollision f ((ts (.ofDigest f) m b).map Spec.Preimage.bytes ++
      ((leafSep ++ ext ++ fk.val ++ fv.val) :: upStrings f (f (leafSep ++ ext ++ fk.val ++ fv.val)) O)) →
    ∃ xs, ub (b ++ xs) m = [(fk, fv)] ∧ O = (hops (.ofDigest f) m b xs).map iop ∧ ext = [] := by
  intro O
  induction O with
  | nil =>
    intro b _ heq hnc
    suffices h : ub b m = [(fk, fv)] ∧ ext = [] by exact ⟨[], by rw [List.append_nil]; exact h.1, rfl, h.2⟩
    have heq : f (leafSep ++ ext ++ fk.val ++ fv.val) = sh (.ofDigest f) m b := heq
    rcases sh_cases hm (.ofDigest f) b with ⟨h0, h1⟩ | ⟨e, h0, h1, h2⟩ | ⟨h0, h1, h2, -⟩
    · exact absurd (heq.trans h1) (hnc.notPlaceholder _ (by simp))
    · rw [h1, preimage_hash_ofDigest] at heq
      have := hnc.inj _ (by simp) _ (List.mem_append_left _ (List.mem_map_of_mem h2)) heq
      have hl := congrArg List.length this
      simp [Spec.Preimage.bytes, fk.property, fv.property, e.1.property, e.2.property] at hl
      subst hl
      have := preimage_bytes_inj (a := .leaf fk fv) (by rw [← this]; simp [Spec.Preimage.bytes])
      injection this with a1 a2
      exact ⟨by rw [h0, a1, a2], rfl⟩
    · rw [h1, preimage_hash_ofDigest] at heq
      have := hnc.inj _ (by simp) _ (List.mem_append_left _ (List.mem_map_of_mem h2)) heq
      simp only [Spec.Preimage.bytes, List.append_assoc] at this
      exact absurd this (leafSep_ne_internal _ _)
  | cons i O ih =>
    intro b hin heq hnc
    have hi := hin i (List.mem_cons_self ..)
    have heq : f (i.pre ++ (up f (f (leafSep ++ ext ++ fk.val ++ fv.val)) O).val ++ i.suf) = sh (.ofDigest f) m b := heq
    unfold Ics23.ensureInner at hi
    rw [ensure_ok] at hi
    simp only [Bool.and_eq_true, decide_eq_true_eq, Bool.not_eq_true', isPrefixOf_eq, decide_eq_false_iff_not] at hi
    obtain ⟨⟨⟨⟨c1, c2⟩, c3⟩, c4⟩, c5⟩ := hi
    have c2 : ¬ leafSep <+: i.pre := c2
    have c3 : 16 ≤ i.pre.length := c3
    have c4 : i.pre.length ≤ 48 := c4
    have c5 : i.suf.length % 32 = 0 := c5
    have hmem : (i.pre ++ (up f (f (leafSep ++ ext ++ fk.val ++ fv.val)) O).val ++ i.suf) ∈
        ((leafSep ++ ext ++ fk.val ++ fv.val) :: upStrings f (f (leafSep ++ ext ++ fk.val ++ fv.val)) (i :: O)) := by
      simp [upStrings]
    rcases sh_cases hm (.ofDigest f) b with ⟨h0, h1⟩ | ⟨e, h0, h1, h2⟩ | ⟨h0, h1, h2, h3⟩
    · exact absurd (heq.trans h1) (hnc.notPlaceholder _ (List.mem_append_right _ hmem))
    · rw [h1, preimage_hash_ofDigest] at heq
      have := hnc.inj _ (List.mem_append_right _ hmem) _ (List.mem_append_left _ (List.mem_map_of_mem h2)) heq
      exfalso
      apply c2
      refine List.prefix_of_prefix_length_le (l₃ := (Spec.Preimage.leaf e.1 e.2).bytes) ?_ ?_ ?_
      · simp only [Spec.Preimage.bytes, List.append_assoc]; exact List.prefix_append _ _
      · rw [← this, List.append_assoc]; exact List.prefix_append _ _
      · have : leafSep.length = 13 := rfl
        omega
    · rw [h1, preimage_hash_ofDigest] at heq
      have := hnc.inj _ (List.mem_append_right _ hmem) _ (List.mem_append_left _ (List.mem_map_of_mem h2)) heq
      have hl := congrArg List.length this
      have hseplen : internalSep.length = 16 := rfl
      generalize hu : up f (f (leafSep ++ ext ++ fk.val ++ fv.val)) O = u at *
      simp only [Spec.Preimage.bytes, List.length_append, hseplen, u.property, (sh (.ofDigest f) m (b ++ [false])).property,
        (sh (.ofDigest f) m (b ++ [true])).property] at hl
      have hrec : ∀ x, u = sh (.ofDigest f) m (b ++ [x]) → i = iop (x, sh (.ofDigest f) m (b ++ [!x])) →
          ∃ xs, ub (b ++ xs) m = [(fk, fv)] ∧ i :: O = (hops (.ofDigest f) m b xs).map iop ∧ ext = [] := by
        intro x hx hix
        obtain ⟨xs, d1, d2, d3⟩ := ih (b ++ [x]) (fun j hj => hin j (List.mem_cons_of_mem _ hj)) hx (hnc.sub (by
          intro a ha
          rcases List.mem_append.1 ha with ha | ha
          · obtain ⟨p, hp, rfl⟩ := List.mem_map.1 ha
            exact List.mem_append_left _ (List.mem_map_of_mem (h3 x p hp))
          · refine List.mem_append_right _ ?_
            rcases List.mem_cons.1 ha with ha | ha
            · exact ha ▸ List.mem_cons_self ..
            · exact List.mem_cons_of_mem _ (List.mem_cons_of_mem _ ha)))
        refine ⟨x :: xs, by simpa using d1, ?_, d3⟩
        rw [hops, if_neg (by omega), List.map_cons, ← hix, ← d2]
      have hcase : (i.pre.length = 16 ∧ i.suf.length = 32) ∨ (i.pre.length = 48 ∧ i.suf.length = 0) := by omega
      simp only [Spec.Preimage.bytes, List.append_assoc] at this
      rcases hcase with ⟨l1, l2⟩ | ⟨l1, l2⟩
      · obtain ⟨e1, e2⟩ := List.append_inj this (by omega)
        obtain ⟨e3, e4⟩ := List.append_inj e2 (by rw [u.property, (sh (.ofDigest f) m (b ++ [false])).property])
        refine hrec false (Subtype.ext e3) ?_
        obtain ⟨ih, ip, is⟩ := i
        simp only at e1 e4 c1
        rw [e1, e4, ← c1]
        rfl
      · have hs : i.suf = [] := List.eq_nil_of_length_eq_zero l2
        rw [← List.append_assoc, ← List.append_assoc, hs, List.append_nil] at this
        obtain ⟨e1, e2⟩ := List.append_inj this (by
          rw [List.length_append, (sh (.ofDigest f) m (b ++ [false])).property]; omega)
        refine hrec true (Subtype.ext e2) ?_
        obtain ⟨ih, ip, is⟩ := i
        simp only at e1 hs c1
        rw [e1, hs, ← c1]
        rfl

end Jmt
