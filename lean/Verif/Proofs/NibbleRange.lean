import Verif.Proofs.InsertAt
import Verif.Spec.NibblePath
import Verif.Proofs.Order
/-!
# Nibble views of keys and nibble ranges
-/
namespace Jmt

theorem byteNibbles_length (b : UInt8) : (byteNibbles b).length = 2 := rfl

theorem nibbles_get (k : KeyHash) (i : Nat) (h : i < 64) :
    ∃ n : Nibble, k.nibbles[i]? = some n ∧ Bytes32.nibble k i = UInt8.ofNat n.val ∧
      Bytes32.getNibble k i = UInt8.ofNat n.val := by
  have hk := k.property
  unfold KeyHash.nibbles
  rw [getElem?_flatMap_const byteNibbles 2 (by decide) (fun _ => rfl)]
  have hb : i / 2 < k.val.length := by omega
  rw [List.getElem?_eq_getElem hb, Option.bind_some]
  have hbyte : Bytes32.byte k (i / 2) = k.val[i / 2] := by
    unfold Bytes32.byte
    rw [List.getD_eq_getElem?_getD, List.getElem?_eq_getElem hb, Option.getD_some]
  have h1 : ∀ n : Fin 256, UInt8.ofNat n.val >>> (4 : UInt8) = UInt8.ofNat ((n.val >>> 4) % 16) ∧
      UInt8.ofNat n.val &&& (0x0f : UInt8) = UInt8.ofNat (n.val % 16) ∧
      (UInt8.ofNat n.val >>> (4 : UInt8)) &&& (0x0f : UInt8) = UInt8.ofNat ((n.val >>> 4) % 16) ∧
      (UInt8.ofNat n.val >>> (0 : UInt8)) &&& (0x0f : UInt8) = UInt8.ofNat (n.val % 16) := by decide +kernel
  have h2 := h1 ⟨k.val[i / 2].toNat, k.val[i / 2].toNat_lt⟩
  simp only [UInt8.ofNat_toNat] at h2
  obtain ⟨a1, a2, a3, a4⟩ := h2
  rcases Nat.mod_two_eq_zero_or_one i with h0 | h0
  · refine ⟨⟨(k.val[i / 2].toNat >>> 4) % 16, Nat.mod_lt _ (by decide)⟩, ?_, ?_, ?_⟩
    · rw [h0]; rfl
    · unfold Bytes32.nibble; rw [hbyte, if_pos h0, a3]
    · unfold Bytes32.getNibble; rw [hbyte, if_pos h0, a1]
  · refine ⟨⟨k.val[i / 2].toNat % 16, Nat.mod_lt _ (by decide)⟩, ?_, ?_, ?_⟩
    · rw [h0]; rfl
    · unfold Bytes32.nibble; rw [hbyte, if_neg (by omega), a4]
    · unfold Bytes32.getNibble; rw [hbyte, if_neg (by omega), a2]

theorem ofNat_nibble_lt : ∀ a b : Nibble, (UInt8.ofNat a.val < UInt8.ofNat b.val ↔ a.val < b.val) := by decide
theorem ofNat_nibble_inj : ∀ a b : Nibble, (UInt8.ofNat a.val = UInt8.ofNat b.val ↔ a = b) := by decide

/-- Equal prefix and list order give order at the next position. -/
theorem nibble_mono {p q : List Nibble} {i : Nat} {a b : Nibble} (hp : p.take i = q.take i) (ha : p[i]? = some a)
    (hb : q[i]? = some b) (h : ¬ q < p) : a.val ≤ b.val := by
  induction i generalizing p q with
  | zero =>
    cases p with
    | nil => simp at ha
    | cons x p =>
      cases q with
      | nil => simp at hb
      | cons y q =>
        simp only [List.getElem?_cons_zero, Option.some.injEq] at ha hb
        subst ha hb
        rw [List.cons_lt_cons_iff] at h
        rcases Nat.lt_or_ge y.val x.val with hlt | hge
        · exact absurd (Or.inl (Fin.lt_def.2 hlt)) h
        · exact hge
  | succ i ih =>
    cases p with
    | nil => simp at ha
    | cons x p =>
      cases q with
      | nil => simp at hb
      | cons y q =>
        simp only [List.take_succ_cons, List.cons.injEq] at hp
        simp only [List.getElem?_cons_succ] at ha hb
        refine ih hp.2 ha hb fun hc => h ?_
        rw [List.cons_lt_cons_iff]
        exact Or.inr ⟨hp.1.symm, hc⟩

section
variable {kvs : List (KeyHash × ValueHash)} {idx : Nat} {f : Nat → UInt8}

/-- The binary search finds the last position carrying the nibble `cur`. -/
theorem rangeSearch_spec (hf : ∀ i, i < kvs.length → kvNibble kvs idx i = .ok (f i))
    (hm : ∀ i j, i ≤ j → j < kvs.length → f i ≤ f j) (cur : UInt8) :
    ∀ (fuel i j : Nat), j - i ≤ fuel → i ≤ j → j < kvs.length → f i ≤ cur →
      (∀ n, j < n → n < kvs.length → cur < f n) →
      ∃ r, rangeSearch kvs idx cur fuel i j = .ok r ∧ i ≤ r ∧ r ≤ j ∧ f r ≤ cur ∧
        ∀ n, r < n → n < kvs.length → cur < f n := by
  intro fuel
  induction fuel with
  | zero =>
    intro i j h hij hj hi ha
    have : i = j := by omega
    subst this
    exact ⟨i, by simp [rangeSearch], Nat.le_refl _, Nat.le_refl _, hi, ha⟩
  | succ fuel ih =>
    intro i j h hij hj hi ha
    unfold rangeSearch
    by_cases hlt : i < j
    · rw [if_pos hlt]
      simp only
      rw [hf _ (by omega), ok_bind]
      by_cases hc : cur < f (j - (j - i) / 2)
      · rw [if_pos hc]
        obtain ⟨r, e1, e2, e3, e4, e5⟩ := ih i (j - (j - i) / 2 - 1) (by omega) (by omega) (by omega) hi
          (fun n h1 h2 => UInt8.lt_of_lt_of_le hc (hm _ _ (by omega) h2))
        exact ⟨r, e1, e2, by omega, e4, e5⟩
      · rw [if_neg hc]
        obtain ⟨r, e1, e2, e3, e4, e5⟩ := ih (j - (j - i) / 2) j (by omega) (by omega) hj (UInt8.not_lt.1 hc) ha
        exact ⟨r, e1, by omega, e3, e4, e5⟩
    · rw [if_neg hlt]
      have : i = j := by omega
      subst this
      exact ⟨i, rfl, Nat.le_refl _, Nat.le_refl _, hi, ha⟩

theorem rangesFrom_spec (hf : ∀ i, i < kvs.length → kvNibble kvs idx i = .ok (f i))
    (hm : ∀ i j, i ≤ j → j < kvs.length → f i ≤ f j) :
    ∀ (fuel pos : Nat), kvs.length - pos < fuel → pos ≤ kvs.length →
      (∀ n, n < pos → ∀ m, pos ≤ m → m < kvs.length → f n < f m) →
      ∃ rs, rangesFrom kvs idx fuel pos = .ok rs ∧ Spec.Tiles pos rs kvs.length ∧
        (∀ lr ∈ rs, pos ≤ lr.1 ∧ lr.1 < kvs.length ∧ ∀ n, n < kvs.length → (f n = f lr.1 ↔ lr.1 ≤ n ∧ n ≤ lr.2)) ∧
        rs.Pairwise (fun a b => f a.1 < f b.1) := by
  intro fuel
  induction fuel with
  | zero => intro pos h; omega
  | succ fuel ih =>
    intro pos h hle hbefore
    unfold rangesFrom
    unfold rangeNext
    by_cases hp : pos < kvs.length
    · rw [if_pos hp, hf _ hp, ok_bind]
      obtain ⟨r, e1, e2, e3, e4, e5⟩ := rangeSearch_spec hf hm (f pos) kvs.length pos (kvs.length - 1) (by omega) (by omega)
        (by omega) (UInt8.le_refl _) (fun n h1 h2 => by omega)
      rw [e1]
      simp only [ok_bind]
      have hbe : ∀ n, n < r + 1 → ∀ m, r + 1 ≤ m → m < kvs.length → f n < f m := by
        intro n hn m hm1 hm2
        have h1 : f n ≤ f r := hm n r (by omega) (by omega)
        exact UInt8.lt_of_le_of_lt (UInt8.le_trans h1 e4) (e5 m (by omega) hm2)
      obtain ⟨rs, g1, g2, g3, g4⟩ := ih (r + 1) (by omega) (by omega) hbe
      rw [g1, ok_bind]
      refine ⟨_, rfl, ⟨rfl, e2, by omega, g2⟩, ?_, ?_⟩
      · intro lr hlr
        rcases List.mem_cons.1 hlr with rfl | hlr
        · refine ⟨Nat.le_refl _, hp, fun n hn => ⟨fun he => ?_, fun he => ?_⟩⟩
          · constructor
            · rcases Nat.lt_or_ge n pos with hlt | hge
              · have := hbefore n hlt pos (Nat.le_refl _) hp
                rw [he] at this
                exact absurd this (UInt8.lt_irrefl _)
              · exact hge
            · rcases Nat.lt_or_ge r n with hlt | hge
              · have := e5 n hlt hn
                rw [he] at this
                exact absurd this (UInt8.lt_irrefl _)
              · exact hge
          · have h1 : f n ≤ f r := hm n r he.2 (by omega)
            exact UInt8.le_antisymm (UInt8.le_trans h1 e4) (hm pos n he.1 hn)
        · obtain ⟨a1, a2, a3⟩ := g3 lr hlr
          exact ⟨by omega, a2, a3⟩
      · refine List.pairwise_cons.2 ⟨fun b hb => ?_, g4⟩
        obtain ⟨a1, a2, a3⟩ := g3 b hb
        exact hbe pos (by omega) b.1 a1 a2
    · rw [if_neg hp]
      exact ⟨[], rfl, by simp only [Spec.Tiles]; omega, by simp, List.Pairwise.nil⟩

end

end Jmt
