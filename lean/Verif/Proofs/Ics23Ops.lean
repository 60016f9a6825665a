import Verif.Model.Ics23
import Verif.Proofs.Verify
/-!
# The ics23 verifier on inner operations of JMT shape
-/
namespace Jmt
open Spec (Entry)
open Ics23 (InnerOp ensure)

/-- The inner operation of one step: the bit says that the child is the right one. -/
def iop (p : Bool × Digest) : InnerOp := if p.1 then ⟨.sha256, internalSep ++ p.2.val, []⟩ else ⟨.sha256, internalSep, p.2.val⟩

theorem ensure_ok {c : Bool} : ensure c = .ok () ↔ c = true := by
  unfold ensure; cases c <;> simp

theorem bind_unit_ok {α : Type} {x : Except Err Unit} {y : Except Err α} {a : α} :
    (x >>= fun _ => y) = .ok a ↔ x = .ok () ∧ y = .ok a := by
  cases x with
  | error e => constructor
               · intro h; cases h
               · intro h; cases h.1
  | ok u => exact ⟨fun h => ⟨rfl, h⟩, fun h => h.2⟩

theorem iop_inj {p q : Bool × Digest} (h1 : (iop p).pre = (iop q).pre) (h2 : (iop p).suf = (iop q).suf) : p = q := by
  obtain ⟨b, d⟩ := p
  obtain ⟨c, e⟩ := q
  have hd := d.property
  have he := e.property
  cases b <;> cases c <;> simp [iop] at h1 h2
  · rw [Subtype.ext h2]
  · rw [h2] at hd; simp at hd
  · rw [h2] at he; simp at he
  · rw [Subtype.ext h1]

theorem isPrefixOf_eq {a b : List UInt8} : a.isPrefixOf b = decide (a <+: b) := by
  rw [Bool.eq_iff_iff, List.isPrefixOf_iff_prefix, decide_eq_true_iff]

theorem ensureInner_iop (p : Bool × Digest) : Ics23.ensureInner (iop p) ics23Spec = .ok () := by
  obtain ⟨b, d⟩ := p
  have hd := d.property
  unfold Ics23.ensureInner
  rw [ensure_ok]
  cases b
  · simp [iop, ics23Spec, ics23LeafOp, hd, internalSep, leafSep, List.isPrefixOf]
  · simp [iop, ics23Spec, ics23LeafOp, hd, internalSep, leafSep, List.isPrefixOf]

theorem ensureInners_map (l : List (Bool × Digest)) : Ics23.ensureInners ics23Spec (l.map iop) = .ok () := by
  induction l with
  | nil => rfl
  | cons p l ih =>
    rw [List.map_cons, Ics23.ensureInners, bind_unit_ok]
    exact ⟨ensureInner_iop p, ih⟩

theorem ensureInners_iff {l : List InnerOp} : Ics23.ensureInners ics23Spec l = .ok () ↔
    ∀ i ∈ l, Ics23.ensureInner i ics23Spec = .ok () := by
  induction l with
  | nil => simp [Ics23.ensureInners]
  | cons p l ih =>
    rw [Ics23.ensureInners, bind_unit_ok, ih]
    simp

/-! ### Padding -/

theorem padding0 : Ics23.getPadding ics23Spec.innerSpec 0 = .ok (16, 16, 32) := by rfl
theorem padding1 : Ics23.getPadding ics23Spec.innerSpec 1 = .ok (48, 48, 0) := by rfl

theorem hasPadding0 (p : Bool × Digest) : Ics23.hasPadding (iop p) (16, 16, 32) = !p.1 := by
  obtain ⟨b, d⟩ := p
  have hd := d.property
  cases b <;> simp [iop, Ics23.hasPadding, hd, internalSep]

theorem hasPadding1 (p : Bool × Digest) : Ics23.hasPadding (iop p) (48, 48, 0) = p.1 := by
  obtain ⟨b, d⟩ := p
  have hd := d.property
  cases b <;> simp [iop, Ics23.hasPadding, hd, internalSep]

theorem orderFromPadding_iop (p : Bool × Digest) :
    Ics23.orderFromPadding ics23Spec.innerSpec (iop p) = .ok (if p.1 then 1 else 0) := by
  show Ics23.orderFromPadding.go ics23Spec.innerSpec (iop p) [0, 1] = _
  unfold Ics23.orderFromPadding.go
  rw [padding0, ok_bind, hasPadding0]
  obtain ⟨b, d⟩ := p
  cases b
  · rfl
  · simp only [Bool.not_true, Bool.false_eq_true, if_false]
    unfold Ics23.orderFromPadding.go
    rw [padding1, ok_bind, hasPadding1]
    rfl

theorem leftEmpty_iop (p : Bool × Digest) :
    Ics23.leftBranchesAreEmpty ics23Spec.innerSpec (iop p) = .ok (p.1 && decide (p.2 = placeholder)) := by
  unfold Ics23.leftBranchesAreEmpty
  rw [orderFromPadding_iop, ok_bind]
  obtain ⟨b, d⟩ := p
  have hd := d.property
  cases b
  · rfl
  · have hiff : d.val = placeholder.val ↔ d = placeholder := ⟨Subtype.ext, congrArg _⟩
    have h1 : (iop (true, d)).pre = internalSep ++ d.val := rfl
    have hl : internalSep.length = 16 := rfl
    simp only [if_true, h1, List.length_append, hd, hl]
    rw [if_neg (by decide), if_neg (by decide)]
    have hcs : ics23Spec.innerSpec.childSize = 32 := rfl
    have hec : ics23Spec.innerSpec.emptyChild = placeholder.val := rfl
    have hr : List.range 1 = [0] := rfl
    simp only [hcs, hec, hr, List.all_cons, List.all_nil, Bool.and_true, Nat.zero_mul, Nat.add_zero, Bool.true_and]
    have : (internalSep ++ d.val).drop (16 + 32 - 1 * 32) = d.val := by
      have : 16 + 32 - 1 * 32 = internalSep.length := rfl
      rw [this, List.drop_left]
    rw [this, List.take_of_length_le (by omega)]
    simp only [hiff]

theorem rightEmpty_iop (p : Bool × Digest) :
    Ics23.rightBranchesAreEmpty ics23Spec.innerSpec (iop p) = .ok (!p.1 && decide (p.2 = placeholder)) := by
  unfold Ics23.rightBranchesAreEmpty
  rw [orderFromPadding_iop, ok_bind]
  obtain ⟨b, d⟩ := p
  have hd := d.property
  cases b
  · have hiff : d.val = placeholder.val ↔ d = placeholder := ⟨Subtype.ext, congrArg _⟩
    have h1 : (iop (false, d)).suf = d.val := rfl
    have hcs : ics23Spec.innerSpec.childSize = 32 := rfl
    have hec : ics23Spec.innerSpec.emptyChild = placeholder.val := rfl
    have hn : ics23Spec.innerSpec.childOrder.length - 1 - (if false = true then 1 else 0) = 1 := rfl
    have hr : List.range 1 = [0] := rfl
    simp only [hn, h1, hd, hcs, hec, hr, List.all_cons, List.all_nil, Bool.and_true, Nat.zero_mul, List.drop_zero]
    rw [if_neg (by decide), if_neg (by decide), List.take_of_length_le (by omega)]
    simp only [hiff, Bool.not_false, Bool.true_and]
  · rfl

/-- Steps that keep to the left, or past an empty left sibling. -/
def LeftMost (l : List (Bool × Digest)) : Prop := ∀ p ∈ l, p.1 = false ∨ p.2 = placeholder
/-- Steps that keep to the right, or past an empty right sibling. -/
def RightMost (l : List (Bool × Digest)) : Prop := ∀ p ∈ l, p.1 = true ∨ p.2 = placeholder

theorem ensureLeftMost_iff (l : List (Bool × Digest)) :
    Ics23.ensureLeftMost ics23Spec.innerSpec (l.map iop) = .ok () ↔ LeftMost l := by
  unfold Ics23.ensureLeftMost
  rw [padding0, ok_bind]
  induction l with
  | nil => simp [Ics23.ensureLeftMost.go, LeftMost]
  | cons p l ih =>
    rw [List.map_cons, Ics23.ensureLeftMost.go, hasPadding0, leftEmpty_iop, ok_bind]
    have hc : LeftMost (p :: l) ↔ (p.1 = false ∨ p.2 = placeholder) ∧ LeftMost l := by simp [LeftMost]
    rw [hc, ← ih]
    obtain ⟨b, d⟩ := p
    cases b
    · simp
    · by_cases h : d = placeholder <;> simp [h]

theorem ensureRightMost_iff (l : List (Bool × Digest)) :
    Ics23.ensureRightMost ics23Spec.innerSpec (l.map iop) = .ok () ↔ RightMost l := by
  unfold Ics23.ensureRightMost
  rw [show ics23Spec.innerSpec.childOrder.length - 1 = 1 from rfl, padding1, ok_bind]
  induction l with
  | nil => simp [Ics23.ensureRightMost.go, RightMost]
  | cons p l ih =>
    rw [List.map_cons, Ics23.ensureRightMost.go, hasPadding1, rightEmpty_iop, ok_bind]
    have hc : RightMost (p :: l) ↔ (p.1 = true ∨ p.2 = placeholder) ∧ RightMost l := by simp [RightMost]
    rw [hc, ← ih]
    obtain ⟨b, d⟩ := p
    cases b
    · by_cases h : d = placeholder <;> simp [h]
    · simp

/-- Two paths (root first) that part at a left and a right step, and then keep to the inside. -/
def Adjacent : List (Bool × Digest) → List (Bool × Digest) → Prop
  | p :: l, q :: r => (p = q ∧ Adjacent l r) ∨ (p ≠ q ∧ p.1 = false ∧ q.1 = true ∧ RightMost l ∧ LeftMost r)
  | _, _ => False

theorem ensureLeftNeighborTop_iff : ∀ (l r : List (Bool × Digest)),
    Ics23.ensureLeftNeighborTop ics23Spec.innerSpec (l.map iop) (r.map iop) = .ok () ↔ Adjacent l r := by
  intro l
  induction l with
  | nil => intro r; simp [Ics23.ensureLeftNeighborTop, Adjacent]
  | cons p l ih =>
    intro r
    cases r with
    | nil => simp [Ics23.ensureLeftNeighborTop, Adjacent]
    | cons q r =>
      rw [List.map_cons, List.map_cons, Ics23.ensureLeftNeighborTop, Adjacent]
      by_cases h : p = q
      · subst h
        rw [if_pos ⟨rfl, rfl⟩, ih]
        simp
      · rw [if_neg (fun hc => h (iop_inj hc.1 hc.2))]
        unfold Ics23.isLeftStep
        simp only [orderFromPadding_iop, ok_bind]
        rw [bind_unit_ok, bind_unit_ok, ensure_ok, ← List.map_reverse, ← List.map_reverse, ensureRightMost_iff,
          ensureLeftMost_iff]
        have e1 : RightMost l.reverse ↔ RightMost l := by simp [RightMost]
        have e2 : LeftMost r.reverse ↔ LeftMost r := by simp [LeftMost]
        rw [e1, e2]
        obtain ⟨b, d⟩ := p
        obtain ⟨c, e⟩ := q
        cases b <;> cases c <;> simp [h]

theorem ensureLeftNeighbor_iff (l r : List (Bool × Digest)) :
    Ics23.ensureLeftNeighbor ics23Spec.innerSpec (l.reverse.map iop) (r.reverse.map iop) = .ok () ↔ Adjacent l r := by
  unfold Ics23.ensureLeftNeighbor
  rw [← List.map_reverse, ← List.map_reverse, List.reverse_reverse, List.reverse_reverse]
  exact ensureLeftNeighborTop_iff l r

end Jmt
