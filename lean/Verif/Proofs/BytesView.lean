import Verif.Proofs.NibblePath
import Verif.Proofs.Verify
/-!
# Bit and nibble views of keys; common prefixes; nibble ranges
-/
namespace Jmt

/-! ### Bits from an iterator -/

/-- Bit `n` of a byte string, most significant first. -/
def lbit (buf : List UInt8) (n : Nat) : Bool := (buf.getD (n / 8) 0).toNat.testBit (7 - n % 8)

theorem one_shl_toNat : ∀ t : Fin 8, ((1 : UInt8) <<< UInt8.ofNat (7 - t.val)).toNat = 2 ^ (7 - t.val) := by decide

theorem lbit_set (buf : List UInt8) (i n : Nat) (hi : i / 8 < buf.length) :
    lbit (buf.set (i / 8) ((buf.getD (i / 8) 0) ||| ((1 : UInt8) <<< UInt8.ofNat (7 - i % 8)))) n =
      (lbit buf n || decide (n = i)) := by
  unfold lbit
  by_cases hq : n / 8 = i / 8
  · rw [hq, List.getD_eq_getElem?_getD, List.getElem?_set_self hi, Option.getD_some, UInt8.toNat_or, Nat.testBit_or,
      one_shl_toNat ⟨i % 8, Nat.mod_lt _ (by decide)⟩, Nat.testBit_two_pow]
    congr 1
    have h1 : n % 8 < 8 := Nat.mod_lt _ (by decide)
    have h2 : i % 8 < 8 := Nat.mod_lt _ (by decide)
    rw [decide_eq_decide]
    simp only
    omega
  · rw [List.getD_eq_getElem?_getD, List.getElem?_set_ne (Ne.symm hq), ← List.getD_eq_getElem?_getD]
    have : n ≠ i := by rintro rfl; exact hq rfl
    simp [this]

theorem fromBitsLoop_spec : ∀ (bs : List Bool) (i : Nat) (buf : List UInt8), i + bs.length ≤ 8 * buf.length →
    (Bytes32.fromBitsLoop bs i buf).length = buf.length ∧
    ∀ n, lbit (Bytes32.fromBitsLoop bs i buf) n = (lbit buf n || (decide (i ≤ n) && bs.getD (n - i) false)) := by
  intro bs
  induction bs with
  | nil => intro i buf _; exact ⟨rfl, fun n => by simp [Bytes32.fromBitsLoop]⟩
  | cons b bs ih =>
    intro i buf h
    simp only [List.length_cons] at h
    unfold Bytes32.fromBitsLoop
    have hi : i / 8 < buf.length := by omega
    have hlen : (if b then buf.set (i / 8) ((buf.getD (i / 8) 0) ||| ((1 : UInt8) <<< UInt8.ofNat (7 - i % 8))) else buf).length
        = buf.length := by split <;> simp
    obtain ⟨h1, h2⟩ := ih (i + 1) _ (by rw [hlen]; omega)
    refine ⟨by rw [h1, hlen], fun n => ?_⟩
    rw [h2 n]
    have hl : lbit (if b then buf.set (i / 8) ((buf.getD (i / 8) 0) ||| ((1 : UInt8) <<< UInt8.ofNat (7 - i % 8))) else buf) n
        = (lbit buf n || (b && decide (n = i))) := by
      cases b
      · simp
      · simpa using lbit_set buf i n hi
    rw [hl, Bool.or_assoc]
    congr 1
    rcases Nat.lt_trichotomy n i with hn | hn | hn
    · have a1 : ¬ i + 1 ≤ n := by omega
      have a2 : ¬ i ≤ n := by omega
      have a3 : n ≠ i := by omega
      simp [a1, a2, a3]
    · subst hn
      have a1 : ¬ n + 1 ≤ n := by omega
      simp [a1]
    · have a1 : i + 1 ≤ n := by omega
      have a2 : i ≤ n := by omega
      have a3 : n ≠ i := by omega
      obtain ⟨d, rfl⟩ : ∃ d, n = i + (d + 1) := ⟨n - i - 1, by omega⟩
      have e1 : i + (d + 1) - (i + 1) = d := by omega
      have e2 : i + (d + 1) - i = d + 1 := by omega
      simp [a1, a2, a3, e1, e2]

theorem fromBitIter_iterBits (k : Bytes32) : Bytes32.fromBitIter (Bytes32.iterBits k) = some k.val := by
  unfold Bytes32.fromBitIter
  have hl : (Bytes32.iterBits k).length = 256 := by simp [Bytes32.iterBits]
  rw [if_neg (by simp [hl])]
  obtain ⟨h1, h2⟩ := fromBitsLoop_spec (Bytes32.iterBits k) 0 (List.replicate 32 0) (by simp [hl])
  rw [List.length_replicate] at h1
  generalize Bytes32.fromBitsLoop (Bytes32.iterBits k) 0 (List.replicate 32 0) = r at h1 h2 ⊢
  have : (⟨r, h1⟩ : Bytes32) = k := by
    apply keyBits_inj
    apply List.ext_getElem?
    intro n
    by_cases hn : n < 256
    · rw [keyBits_getElem? _ n hn, keyBits_getElem? _ n hn]
      congr 1
      have := h2 n
      unfold Spec.bit
      unfold lbit at this
      simp only
      rw [this]
      have hz : (List.replicate 32 (0 : UInt8)).getD (n / 8) 0 = 0 := by
        rw [List.getD_eq_getElem?_getD, List.getElem?_replicate]; split <;> rfl
      rw [hz]
      simp only [UInt8.toNat_zero, Nat.zero_testBit, Bool.false_or, Nat.zero_le, decide_true, Bool.true_and, Nat.sub_zero]
      unfold Bytes32.iterBits
      rw [List.getD_eq_getElem?_getD, List.getElem?_map, List.getElem?_range hn, Option.map_some, Option.getD_some,
        getBit_eq]
      rfl
    · rw [List.getElem?_eq_none (by rw [keyBits_length]; omega), List.getElem?_eq_none (by rw [keyBits_length]; omega)]
  rw [← this]

/-! ### Bit order -/

theorem nibbleBits_lt (a b : Nibble) (x y : List Bool) :
    nibbleBits a ++ x < nibbleBits b ++ y ↔ a < b ∨ a = b ∧ x < y := by
  unfold nibbleBits
  simp only [List.cons_append, List.nil_append, List.cons_lt_cons_iff]
  generalize (x < y) = p
  revert a b
  by_cases hp : p
  · simp only [hp]; decide
  · simp only [hp]; decide

theorem pathBits_lt {p q : List Nibble} (h : p.length = q.length) : pathBits p < pathBits q ↔ p < q := by
  induction p generalizing q with
  | nil => cases q with
    | nil => simp
    | cons => simp at h
  | cons a p ih =>
    cases q with
    | nil => simp at h
    | cons b q =>
      rw [pathBits_cons, pathBits_cons, nibbleBits_lt, List.cons_lt_cons_iff, ih (by simpa using h)]

/-! ### Common prefixes -/

theorem skipCommonPrefix_lcp {α : Type} [DecidableEq α] : ∀ (xs ys : List α), ∃ c,
    skipCommonPrefix xs ys = (c.length, xs.drop c.length, ys.drop c.length) ∧ Spec.IsLcp c xs ys := by
  intro xs
  induction xs with
  | nil => intro ys; exact ⟨[], by cases ys <;> rfl, ⟨List.nil_prefix, List.nil_prefix, fun d h _ => h.length_le⟩⟩
  | cons x xs ih =>
    intro ys
    cases ys with
    | nil => exact ⟨[], rfl, ⟨List.nil_prefix, List.nil_prefix, fun d _ h => h.length_le⟩⟩
    | cons y ys =>
      by_cases h : x = y
      · subst h
        obtain ⟨c, h1, h2, h3, h4⟩ := ih ys
        refine ⟨x :: c, ?_, ?_, ?_, ?_⟩
        · rw [skipCommonPrefix, if_pos rfl, h1]; rfl
        · simpa using h2
        · simpa using h3
        · intro d d1 d2
          cases d with
          | nil => simp
          | cons a d =>
            simp only [List.cons_prefix_cons] at d1 d2
            simp [h4 d d1.2 d2.2]
      · refine ⟨[], ?_, List.nil_prefix, List.nil_prefix, ?_⟩
        · rw [skipCommonPrefix, if_neg h]; rfl
        · intro d d1 d2
          cases d with
          | nil => simp
          | cons a d =>
            simp only [List.cons_prefix_cons] at d1 d2
            exact absurd (d1.1.symm.trans d2.1) h

theorem skipCommonPrefix_iter {l l' : List Nibble} : ∀ {f : Nat} {x y : NibbleIter} {n : Nat}, x.At l → y.At l' →
    x.stop - x.pos < f →
    ∃ x' y', NibbleIter.skipCommonPrefix f x y n =
        .ok (n + (skipCommonPrefix (x.remaining l) (y.remaining l')).1, x', y') ∧
      x'.At l ∧ y'.At l' ∧ x'.remaining l = (skipCommonPrefix (x.remaining l) (y.remaining l')).2.1 ∧
      y'.remaining l' = (skipCommonPrefix (x.remaining l) (y.remaining l')).2.2 ∧
      x'.start = x.start ∧ x'.stop = x.stop ∧ y'.start = y.start ∧ y'.stop = y.stop := by
  intro f
  induction f with
  | zero => intro x y n _ _ h; omega
  | succ f ih =>
    intro x y n hx hy hf
    obtain ⟨x', x1, x2, x3, -, x5, x6⟩ := hx.next
    obtain ⟨y', y1, y2, y3, -, y5, y6⟩ := hy.next
    unfold NibbleIter.skipCommonPrefix
    rw [hx.peek, ok_bind, hy.peek, ok_bind]
    cases hxr : x.remaining l with
    | nil => exact ⟨x, y, rfl, hx, hy, by rw [hxr]; cases y.remaining l' <;> rfl, by cases y.remaining l' <;> rfl, rfl, rfl, rfl, rfl⟩
    | cons a xs =>
      cases hyr : y.remaining l' with
      | nil => exact ⟨x, y, rfl, hx, hy, by rw [hxr]; rfl, by rw [hyr]; rfl, rfl, rfl, rfl, rfl⟩
      | cons b ys =>
        simp only [List.head?_cons]
        by_cases hab : a = b
        · simp only [hab, if_true]
          rw [x1, ok_bind]
          simp only
          rw [y1, ok_bind]
          simp only
          have hpos : x'.stop - x'.pos < f := by
            have hlen : (x'.remaining l).length = x'.stop - x'.pos := by
              have := x2.stop_le; simp [NibbleIter.remaining]; omega
            have hlen' : (x.remaining l).length = x.stop - x.pos := by
              have := hx.stop_le; simp [NibbleIter.remaining]; omega
            rw [x3, hxr] at hlen
            rw [hxr] at hlen'
            simp at hlen hlen'
            omega
          obtain ⟨x'', y'', e1, e2, e3, e4, e5, e6, e7, e8, e9⟩ := ih (n := n + 1) x2 y2 hpos
          rw [x3, y3, hxr, hyr] at e1 e4 e5
          simp only [List.tail_cons] at e1 e4 e5
          refine ⟨x'', y'', ?_, e2, e3, ?_, ?_, e6.trans x5, e7.trans x6, e8.trans y5, e9.trans y6⟩
          · rw [e1, skipCommonPrefix, if_pos rfl]
            simp only [Nat.add_assoc, Nat.add_comm 1]
          · rw [e4, skipCommonPrefix, if_pos rfl]
          · rw [e5, skipCommonPrefix, if_pos rfl]
        · rw [if_neg hab]
          refine ⟨x, y, ?_, hx, hy, ?_, ?_, rfl, rfl, rfl, rfl⟩
          · rw [skipCommonPrefix, if_neg hab]; rfl
          · rw [skipCommonPrefix, if_neg hab, hxr]
          · rw [skipCommonPrefix, if_neg hab, hyr]

end Jmt
