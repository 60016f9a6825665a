import Verif.Proofs.Canon
/-!
# Key order: bytes, nibbles, and the position of a key relative to a path
-/
namespace Jmt
open Spec (Entry)

/-- Position of the full path `x` relative to the subtree at `q`: `eq` below `q`, `lt` if `q` is before
`x`, `gt` if `x` is before `q`. -/
def pos : List Nibble → List Nibble → Ordering
  | [], _ => .eq
  | _ :: _, [] => .gt
  | a :: q, b :: x => if a.val < b.val then .lt else if b.val < a.val then .gt else pos q x

theorem pos_eq_iff {q x : List Nibble} : pos q x = .eq ↔ q <+: x := by
  induction q generalizing x with
  | nil => simp [pos]
  | cons a q ih =>
    cases x with
    | nil => simp [pos]
    | cons b x =>
      simp only [pos, List.cons_prefix_cons]
      by_cases h1 : a.val < b.val
      · simp only [h1, if_true]; simp; rintro rfl; omega
      · by_cases h2 : b.val < a.val
        · simp only [h1, h2, if_true, if_false]; simp; rintro rfl; omega
        · have : a = b := Fin.ext (by omega)
          simp [this, ih]

theorem pos_append (p q x : List Nibble) :
    pos (p ++ q) x = (pos p x).then (pos q (x.drop p.length)) := by
  induction p generalizing x with
  | nil => simp [pos]
  | cons a p ih =>
    cases x with
    | nil => simp [pos]
    | cons b x =>
      simp only [pos, List.cons_append, List.length_cons, List.drop_succ_cons]
      split
      · rfl
      · split
        · rfl
        · exact ih x

/-- One more nibble. -/
theorem pos_snoc {p x : List Nibble} (i : Nibble) (h : p.length < x.length) :
    pos (p ++ [i]) x = (pos p x).then (compare i.val x[p.length].val) := by
  rw [pos_append, List.drop_eq_getElem_cons h]
  congr 1
  simp only [pos]
  by_cases h1 : i.val < x[p.length].val
  · rw [if_pos h1, Nat.compare_eq_lt.2 h1]
  · by_cases h2 : x[p.length].val < i.val
    · rw [if_neg h1, if_pos h2, Nat.compare_eq_gt.2 h2]
    · have : i.val = x[p.length].val := by omega
      rw [if_neg h1, if_neg h2, this, Nat.compare_eq_eq.2 rfl]

theorem pos_lt_iff {x y : List Nibble} (h : x.length = y.length) : pos x y = .lt ↔ x < y := by
  induction x generalizing y with
  | nil =>
    cases y with
    | nil => simp [pos]
    | cons => simp at h
  | cons a x ih =>
    cases y with
    | nil => simp at h
    | cons b y =>
      simp only [List.length_cons, Nat.add_right_cancel_iff] at h
      rw [List.cons_lt_cons_iff, ← ih h, Fin.lt_def]
      simp only [pos]
      rcases Nat.lt_trichotomy a.val b.val with h1 | h1 | h1
      · simp [h1]
      · have : a = b := Fin.ext h1
        simp [this]
      · have h2 : ¬ a.val < b.val := by omega
        have h3 : a ≠ b := by rintro rfl; omega
        simp [h1, h2, h3]

theorem pos_gt_iff {x y : List Nibble} (h : x.length = y.length) : pos x y = .gt ↔ y < x := by
  induction x generalizing y with
  | nil =>
    cases y with
    | nil => simp [pos]
    | cons => simp at h
  | cons a x ih =>
    cases y with
    | nil => simp at h
    | cons b y =>
      simp only [List.length_cons, Nat.add_right_cancel_iff] at h
      rw [List.cons_lt_cons_iff, ← ih h, Fin.lt_def]
      simp only [pos]
      rcases Nat.lt_trichotomy a.val b.val with h1 | h1 | h1
      · have h2 : ¬ b.val < a.val := by omega
        have h3 : b ≠ a := by rintro rfl; omega
        simp [h1, h2, h3]
      · have : a = b := Fin.ext h1
        simp [this]
      · have h2 : ¬ a.val < b.val := by omega
        simp [h1, h2]

/-- The subtree at `q` is an interval: what is before it is before what is in it, and so on. -/
theorem pos_trans {q x y : List Nibble} (h : x.length = y.length) (hq : q.length ≤ x.length)
    (hx : pos q x ≠ .lt) (hy : pos q y ≠ .gt) (hne : pos q x ≠ .eq ∨ pos q y ≠ .eq) : x < y := by
  induction q generalizing x y with
  | nil => simp [pos] at hne
  | cons a q ih =>
    match x, y with
    | [], _ => simp at hq
    | _ :: _, [] => simp at h
    | b :: x, c :: y =>
      simp only [List.length_cons, Nat.add_right_cancel_iff, Nat.add_le_add_iff_right] at h hq
      simp only [pos] at hx hy hne
      rw [List.cons_lt_cons_iff]
      by_cases h1 : a.val < b.val
      · simp [h1] at hx
      · by_cases h4 : c.val < a.val
        · have : ¬ a.val < c.val := by omega
          simp [this, h4] at hy
        · by_cases h2 : b.val < a.val
          · left; rw [Fin.lt_def]; omega
          · have hb : a = b := Fin.ext (by omega)
            subst hb
            by_cases h3 : a.val < c.val
            · left; exact h3
            · have hc : a = c := Fin.ext (by omega)
              subst hc
              right
              simp at hx hy hne
              exact ⟨rfl, ih h hq hx hy hne⟩

/-! ## Byte order is nibble order -/

theorem byteNibbles_lt (a b : UInt8) (x y : List Nibble) :
    byteNibbles a ++ x < byteNibbles b ++ y ↔ a < b ∨ a = b ∧ x < y := by
  unfold byteNibbles
  simp only [List.cons_append, List.nil_append, List.cons_lt_cons_iff]
  have ha := a.toNat_lt
  have hb := b.toNat_lt
  rw [UInt8.lt_iff_toNat_lt, ← UInt8.toNat_inj]
  simp only [Fin.lt_def, Fin.mk.injEq, Nat.shiftRight_eq_div_pow]
  constructor
  · rintro (h | ⟨h1, h2 | ⟨h2, h3⟩⟩)
    · left; omega
    · left; omega
    · right; exact ⟨by omega, h3⟩
  · rintro (h | ⟨h, h3⟩)
    · omega
    · right; exact ⟨by omega, .inr ⟨by omega, h3⟩⟩

theorem flatMap_nibbles_lt (l l' : List UInt8) :
    l.flatMap byteNibbles < l'.flatMap byteNibbles ↔ l < l' := by
  induction l generalizing l' with
  | nil =>
    cases l' with
    | nil => simp
    | cons b l' => simp [byteNibbles]
  | cons a l ih =>
    cases l' with
    | nil => simp
    | cons b l' =>
      rw [List.flatMap_cons, List.flatMap_cons, byteNibbles_lt, List.cons_lt_cons_iff, ih]

/-- `KeyHash`'s `Ord` (bytes) is the lexicographic order of the nibbles. -/
theorem nibbles_lt {k k' : KeyHash} : k.nibbles < k'.nibbles ↔ k.val < k'.val :=
  flatMap_nibbles_lt _ _

end Jmt
