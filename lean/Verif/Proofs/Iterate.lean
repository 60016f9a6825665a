import Verif.Proofs.Order
import Verif.Proofs.Reach
import Verif.Spec.Iterate
/-!
# The iterator: bitmaps, the stack invariant, `next`
-/
namespace Jmt
open Spec (Entry)

/-! ## Bitmaps -/

theorem lz_spec {b : BitVec 16} {j : Nibble} (hj : b.getLsbD j.val = true) :
    ∃ t : Nibble, leadingZeros16 b = 15 - t.val ∧ b.getLsbD t.val = true ∧
      ∀ k : Nibble, b.getLsbD k.val = true → k.val ≤ t.val := by
  unfold leadingZeros16
  have hpw : (List.finRange 16).reverse.Pairwise (fun a b : Fin 16 => b.val < a.val) := by decide
  cases hf : (List.finRange 16).reverse.find? (fun i => b.getLsbD i.val) with
  | none =>
    rw [List.find?_eq_none] at hf
    exact absurd hj (hf j (by simp))
  | some t =>
    obtain ⟨ht, as, bs, hl, has⟩ := List.find?_eq_some_iff_append.1 hf
    refine ⟨t, rfl, ht, fun k hk => ?_⟩
    have hmem : k ∈ as ++ t :: bs := by rw [← hl]; simp
    rw [hl, List.pairwise_append] at hpw
    rcases List.mem_append.1 hmem with h | h
    · have := has k h; rw [hk] at this; cases this
    · rcases List.mem_cons.1 h with rfl | h
      · exact Nat.le_refl _
      · have := List.rel_of_pairwise_cons hpw.2.1 h; omega

theorem lz_one : ∀ i : Nibble, leadingZeros16 ((1 : BitVec 16) <<< i.val) = 15 - i.val := by decide

theorem one_shl_succ : ∀ i : Nibble, i.val < 15 →
    ((1 : BitVec 16) <<< i.val) <<< 1 = (1 : BitVec 16) <<< (i.val + 1) := by decide

theorem one_and_zero (b : BitVec 16) (i : Nibble) :
    ((1 : BitVec 16) <<< i.val) &&& b = 0#16 ↔ b.getLsbD i.val = false := by
  constructor
  · intro h
    have := congrArg (fun x => x.getLsbD i.val) h
    simp only [BitVec.getLsbD_and, getLsbD_one_shl, BitVec.getLsbD_zero] at this
    simpa using this
  · intro h
    apply BitVec.eq_of_getLsbD_eq
    intro j hj
    rw [BitVec.getLsbD_and]
    have := getLsbD_one_shl i ⟨j, hj⟩
    simp only at this
    rw [this, BitVec.getLsbD_zero]
    by_cases hji : (⟨j, hj⟩ : Nibble) = i
    · subst hji; simp [h]
    · simp [hji]

theorem toNat_one_shl : ∀ i : Nibble, ((1 : BitVec 16) <<< i.val).toNat = 2 ^ i.val := by decide

theorem tz_one : ∀ i : Nibble, trailingZeros16 ((1 : BitVec 16) <<< i.val) = i.val := by decide

theorem tz_spec {b : BitVec 16} {j : Nibble} (hj : b.getLsbD j.val = true) :
    ∃ t : Nibble, trailingZeros16 b = t.val ∧ b.getLsbD t.val = true ∧
      ∀ k : Nibble, b.getLsbD k.val = true → t.val ≤ k.val := by
  unfold trailingZeros16
  have hpw : (List.finRange 16).Pairwise (fun a b : Fin 16 => a.val < b.val) := by decide
  cases hf : (List.finRange 16).find? (fun i => b.getLsbD i.val) with
  | none =>
    rw [List.find?_eq_none] at hf
    exact absurd hj (hf j (by simp))
  | some t =>
    obtain ⟨ht, as, bs, hl, has⟩ := List.find?_eq_some_iff_append.1 hf
    refine ⟨t, rfl, ht, fun k hk => ?_⟩
    have hmem : k ∈ as ++ t :: bs := by rw [← hl]; simp
    rw [hl, List.pairwise_append] at hpw
    rcases List.mem_append.1 hmem with h | h
    · have := has k h; rw [hk] at this; cases this
    · rcases List.mem_cons.1 h with rfl | h
      · exact Nat.le_refl _
      · have := List.rel_of_pairwise_cons hpw.2.1 h; omega

/-- The least set bit at or after `i`. -/
theorem least_bit {b : BitVec 16} (i : Nat) (h : ∃ j : Nibble, i ≤ j.val ∧ b.getLsbD j.val = true) :
    ∃ j : Nibble, i ≤ j.val ∧ b.getLsbD j.val = true ∧
      ∀ k : Nibble, i ≤ k.val → b.getLsbD k.val = true → j.val ≤ k.val := by
  obtain ⟨j, h1, h2⟩ := h
  induction hd : j.val - i using Nat.strongRecOn generalizing j with
  | ind d ih =>
    by_cases hl : ∃ k : Nibble, i ≤ k.val ∧ b.getLsbD k.val = true ∧ k.val < j.val
    · obtain ⟨k, k1, k2, k3⟩ := hl
      exact ih (k.val - i) (by omega) k k1 k2 rfl
    · refine ⟨j, h1, h2, fun k k1 k2 => ?_⟩
      apply Decidable.byContradiction
      intro hc
      exact hl ⟨k, k1, k2, by omega⟩

theorem shiftLoop_ok {b : BitVec 16} {f : Nat} {i j : Nibble} (hij : i.val ≤ j.val)
    (hj : b.getLsbD j.val = true)
    (hl : ∀ k : Nibble, i.val ≤ k.val → b.getLsbD k.val = true → j.val ≤ k.val) (hf : j.val - i.val < f) :
    VisitInfo.shiftLoop b f ((1 : BitVec 16) <<< i.val) = .ok ((1 : BitVec 16) <<< j.val) := by
  induction f generalizing i with
  | zero => omega
  | succ f ih =>
    unfold VisitInfo.shiftLoop
    by_cases hi : b.getLsbD i.val = true
    · have : i.val = j.val := Nat.le_antisymm hij (hl i (Nat.le_refl _) hi)
      rw [if_neg (by rw [one_and_zero, hi]; simp), this]
    · have hne : i.val ≠ j.val := by intro h; rw [h] at hi; exact hi hj
      have hj16 := j.isLt
      rw [if_pos ((one_and_zero b i).2 (by simpa using hi)), one_shl_succ i (by omega)]
      exact ih (i := ⟨i.val + 1, by omega⟩) (by simp only; omega)
        (fun k h1 h2 => hl k (by simp only at h1; omega) h2) (by simp only; omega)

/-! ## Positions and parts of a sorted list of entries -/

/-- Strictly increasing keys. -/
def SortedE (m : List Entry) : Prop := m.Pairwise (fun a b => a.1.nibbles < b.1.nibbles)

/-- The entries below or after `q`. -/
def rest (m : List Entry) (q : List Nibble) : List Entry := m.filter (fun e => pos q e.1.nibbles != .gt)
/-- The entries after the subtree at `q`. -/
def after (m : List Entry) (q : List Nibble) : List Entry := m.filter (fun e => pos q e.1.nibbles == .lt)

theorem filter_cons_of_sorted {α : Type} {lt : α → α → Prop} (irr : ∀ a, ¬ lt a a)
    (asym : ∀ a b, lt a b → ¬ lt b a) {m : List α} (hs : m.Pairwise lt) {e : α} (he : e ∈ m)
    {P Q : α → Bool} (hP : ∀ x ∈ m, P x = true ↔ x = e ∨ Q x = true)
    (hQ : ∀ x ∈ m, Q x = true → lt e x) : m.filter P = e :: m.filter Q := by
  induction m with
  | nil => simp at he
  | cons a m ih =>
    rw [List.pairwise_cons] at hs
    rcases List.mem_cons.1 he with rfl | he'
    · have h1 : P e = true := (hP e (by simp)).2 (.inl rfl)
      have h2 : Q e = false := by
        cases hq : Q e
        · rfl
        · exact absurd (hQ e (by simp) hq) (irr e)
      rw [List.filter_cons_of_pos h1, List.filter_cons_of_neg (by simp [h2])]
      congr 1
      apply List.filter_congr
      intro x hx
      rw [Bool.eq_iff_iff, hP x (by simp [hx])]
      constructor
      · rintro (rfl | h)
        · exact absurd (hs.1 _ hx) (irr _)
        · exact h
      · exact .inr
    · have hae := hs.1 e he'
      have h2 : Q a = false := by
        cases hq : Q a
        · rfl
        · exact absurd (hQ a (by simp) hq) (asym _ _ hae)
      have h1 : P a = false := by
        cases hp : P a
        · rfl
        · rcases (hP a (by simp)).1 hp with rfl | h
          · exact absurd hae (irr _)
          · rw [h2] at h; cases h
      rw [List.filter_cons_of_neg (by simp [h1]), List.filter_cons_of_neg (by simp [h2])]
      exact ih hs.2 he' (fun x hx => hP x (by simp [hx])) (fun x hx => hQ x (by simp [hx]))

theorem filter_eq_drop {α : Type} {P : α → Bool} {m : List α}
    (h : m.Pairwise (fun a b => P a = true → P b = true)) :
    m.filter P = m.drop (m.filter (fun a => !P a)).length := by
  induction m with
  | nil => rfl
  | cons a m ih =>
    rw [List.pairwise_cons] at h
    cases hp : P a
    · rw [List.filter_cons_of_neg (by simp [hp]), List.filter_cons_of_pos (by simp [hp]), ih h.2]
      rfl
    · have : ∀ b ∈ m, P b = true := fun b hb => h.1 b hb hp
      have h2 : m.filter (fun a => !P a) = [] := by
        rw [List.filter_eq_nil_iff]; intro b hb; simp [this b hb]
      rw [List.filter_cons_of_pos hp, List.filter_cons_of_neg (by simp [hp]), h2,
        List.filter_eq_self.2 this]
      rfl

section
variable {H : Hasher} {m : List Entry} {ver : List Nibble → Version} {p q : List Nibble}

theorem pos_child {e : Entry} (hp : p.length < 64) (i : Nibble) :
    pos (p ++ [i]) e.1.nibbles =
      (pos p e.1.nibbles).then (compare i.val (e.1.nibbles[p.length]'(by simpa using hp)).val) :=
  pos_snoc i (by simpa using hp)

/-- An entry below `p` is below the child its next nibble names. -/
theorem under_next {e : Entry} (hp : p.length < 64) (he : e ∈ m) (hpos : pos p e.1.nibbles = .eq) :
    under (p ++ [e.1.nibbles[p.length]'(by simpa using hp)]) m ≠ [] := by
  apply List.ne_nil_of_mem (a := e)
  rw [mem_under]
  refine ⟨he, ?_⟩
  rw [← pos_eq_iff, pos_child hp, hpos]
  simp

theorem then_lt {a b : Ordering} : a.then b = .lt ↔ a = .lt ∨ (a = .eq ∧ b = .lt) := by
  cases a <;> simp [Ordering.then]
theorem then_gt {a b : Ordering} : a.then b = .gt ↔ a = .gt ∨ (a = .eq ∧ b = .gt) := by
  cases a <;> simp [Ordering.then]

/-- Nothing to the right of child `i`: what comes after it comes after the node. -/
theorem after_rightmost (hp : p.length < 64) {i : Nibble}
    (h : ∀ j : Nibble, under (p ++ [j]) m ≠ [] → j.val ≤ i.val) : after m (p ++ [i]) = after m p := by
  apply List.filter_congr
  intro e he
  rw [Bool.eq_iff_iff, beq_iff_eq, beq_iff_eq, pos_child hp, then_lt]
  constructor
  · rintro (h1 | ⟨h1, h2⟩)
    · exact h1
    · have := h _ (under_next hp he h1)
      rw [Nat.compare_eq_lt] at h2
      omega
  · exact .inl

/-- The next child `j` after child `i`. -/
theorem after_advance (hp : p.length < 64) {i j : Nibble} (hij : i.val < j.val)
    (h : ∀ k : Nibble, i.val < k.val → under (p ++ [k]) m ≠ [] → j.val ≤ k.val) :
    rest m (p ++ [j]) = after m (p ++ [i]) := by
  apply List.filter_congr
  intro e he
  rw [Bool.eq_iff_iff, beq_iff_eq, bne_iff_ne, ne_eq, pos_child hp, pos_child hp, then_lt, then_gt]
  rcases hpos : pos p e.1.nibbles with _ | _ | _
  · simp
  · simp only [reduceCtorEq, false_or, true_and, Nat.compare_eq_lt, Nat.compare_eq_gt]
    constructor
    · intro h'; omega
    · intro h'
      have := h _ h' (under_next hp he hpos)
      omega
  · simp

/-- Descending to the first child. -/
theorem rest_first (hp : p.length < 64) {j : Nibble}
    (h : ∀ k : Nibble, under (p ++ [k]) m ≠ [] → j.val ≤ k.val) : rest m (p ++ [j]) = rest m p := by
  apply List.filter_congr
  intro e he
  rw [Bool.eq_iff_iff, bne_iff_ne, bne_iff_ne, ne_eq, ne_eq, pos_child hp, then_gt]
  constructor
  · intro h1 h2; exact h1 (.inl h2)
  · rintro h1 (h2 | ⟨h2, h3⟩)
    · exact h1 h2
    · have := h _ (under_next hp he h2)
      rw [Nat.compare_eq_gt] at h3
      omega

theorem list_lt_irrefl (a : List Nibble) : ¬ a < a := List.lt_irrefl a

theorem rest_leaf (hs : SortedE m) (hq : q.length ≤ 64) {e : Entry} (h : under q m = [e]) :
    rest m q = e :: after m q := by
  have hmem : e ∈ under q m := by rw [h]; simp
  rw [mem_under] at hmem
  apply filter_cons_of_sorted (lt := fun a b : Entry => a.1.nibbles < b.1.nibbles)
    (fun a => List.lt_irrefl _) (fun a b h1 h2 => List.lt_irrefl _ (List.lt_trans h1 h2)) hs hmem.1
  · intro x hx
    rw [bne_iff_ne, beq_iff_eq]
    constructor
    · intro hne
      rcases hpos : pos q x.1.nibbles with _ | _ | _
      · exact .inr rfl
      · left
        have : x ∈ under q m := mem_under.2 ⟨hx, pos_eq_iff.1 hpos⟩
        rw [h] at this; simpa using this
      · exact absurd hpos hne
    · rintro (rfl | h1)
      · rw [pos_eq_iff.2 hmem.2]; simp
      · rw [h1]; simp
  · intro x _ hx
    rw [beq_iff_eq] at hx
    apply pos_trans (q := q) (by simp) (by simpa using hq)
    · rw [pos_eq_iff.2 hmem.2]; simp
    · rw [hx]; simp
    · right; rw [hx]; simp

end
end Jmt

namespace Jmt
open Spec (Entry)

/-- The version under which the node at `p` is stored. -/
def verAt (v : Version) (ver : List Nibble → Version) (p : List Nibble) : Version := if p = [] then v else ver p

/-- The stack standing before the subtree at `q`: one entry for each proper prefix of `q`. -/
inductive StackAt (H : Hasher) (v : Version) (m : List Entry) (ver : List Nibble → Version) :
    List Nibble → List VisitInfo → Prop
  | nil : StackAt H v m ver [] []
  | snoc {p : List Nibble} {stk : List VisitInfo} {i : Nibble} {b : BitVec 16} : StackAt H v m ver p stk →
      2 ≤ (under p m).length → (∀ j : Nibble, b.getLsbD j.val = true ↔ under (p ++ [j]) m ≠ []) →
      under (p ++ [i]) m ≠ [] →
      StackAt H v m ver (p ++ [i]) (⟨⟨verAt v ver p, p⟩, canonInternal H m ver p, b, (1 : BitVec 16) <<< i.val⟩ :: stk)

section
variable {H : Hasher} {R : Reader} {v : Version} {m : List Entry} {ver : List Nibble → Version}
  {p q : List Nibble} {stk : List VisitInfo}

theorem StackAt.path_nil (h : StackAt H v m ver q []) : q = [] := by
  cases h; rfl
theorem StackAt.stk_nil (h : StackAt H v m ver q stk) (hq : q = []) : stk = [] := by
  cases h
  · rfl
  · simp at hq

theorem StackAt.two (h : StackAt H v m ver q stk) (hq : q ≠ []) : 2 ≤ m.length := by
  cases h
  · exact absurd rfl hq
  · next p _ _ _ _ h2 _ _ =>
    have := length_under_le (List.nil_prefix (l := p)) m
    simp at this
    exact Nat.le_trans h2 this

theorem StackAt.under (h : StackAt H v m ver q stk) (hq : q ≠ []) : under q m ≠ [] := by
  cases h
  · exact absurd rfl hq
  · next _ _ h => exact h

theorem path_length_le {m : List Entry} (h : Jmt.under q m ≠ []) : q.length ≤ 64 := by
  obtain ⟨e, he⟩ := List.exists_mem_of_ne_nil _ h
  have := (mem_under.1 he).2.length_le
  simpa using this

/-- The nodes on the way are present. -/
theorem StackAt.pres (h : StackAt H v m ver q stk) (hm : m ≠ []) : Jmt.pres m [] q := by
  cases h
  · simpa [pres_nil_iff] using hm
  · next h1 h2 h3 h4 => exact pres_nil_iff.2 ⟨h4, .inr (by simpa using h2)⟩

/-- Reading the node at a present path. -/
theorem TreeAt.read (t : TreeAt H R.getNodeOption v m ver) (hq : q = [] ∨ Jmt.pres m [] q) :
    R.getNode ⟨verAt v ver q, q⟩ = .ok (canonNode H m ver q) := by
  unfold Reader.getNode verAt
  by_cases h : q = []
  · subst h; rw [if_pos rfl, t.root]
  · rw [if_neg h, t.node q h (hq.resolve_left h)]

theorem bitmaps_canon (p : List Nibble) :
    ∃ bm, (canonInternal H m ver p).generateBitmaps = .ok bm ∧
      ∀ j : Nibble, bm.1.getLsbD j.val = true ↔ Jmt.under (p ++ [j]) m ≠ [] := by
  obtain ⟨bm, h1, h2⟩ := generateBitmaps_ok (canonInternal H m ver p)
  refine ⟨bm, h1, fun j => ?_⟩
  rw [(h2 j).1]
  have : (canonInternal H m ver p).children.slots j = canonChild H m ver (p ++ [j]) := rfl
  have hj := j.isLt
  rw [this, ← canonChild_isSome (H := H) (ver := ver)]
  simp

theorem cleanupStack_spec (hm : NodupE m) (h : StackAt H v m ver q stk) :
    ∃ stk', Iter.cleanupStack stk = .ok stk' ∧
      ((stk' = [] ∧ after m q = []) ∨
        ∃ q', q' ≠ [] ∧ StackAt H v m ver q' stk' ∧ rest m q' = after m q) := by
  induction h with
  | nil =>
    refine ⟨[], rfl, .inl ⟨rfl, ?_⟩⟩
    unfold after
    rw [List.filter_eq_nil_iff]
    intro e _; simp [pos]
  | @snoc p stk i b hstk h2 hb hi ih =>
    have hp := under_length_lt_of_two hm h2
    obtain ⟨t, t1, t2, t3⟩ := lz_spec ((hb i).2 hi)
    have hit : i.val ≤ t.val := t3 i ((hb i).2 hi)
    have ht := t.isLt
    have hi16 := i.isLt
    have hr : VisitInfo.isRightmost ⟨⟨verAt v ver p, p⟩, canonInternal H m ver p, b, (1 : BitVec 16) <<< i.val⟩
        = .ok (decide (i.val = t.val)) := by
      unfold VisitInfo.isRightmost
      simp only [lz_one, t1]
      rw [if_neg (by omega)]
      congr 1
      rw [Bool.eq_iff_iff]
      simp
      omega
    unfold Iter.cleanupStack
    rw [hr, ok_bind]
    by_cases he : i.val = t.val
    · rw [if_pos (by simpa using he)]
      obtain ⟨stk', s1, s2⟩ := ih
      refine ⟨stk', s1, ?_⟩
      rw [after_rightmost hp (fun j hj => by rw [he]; exact t3 j ((hb j).2 hj))]
      exact s2
    · rw [if_neg (by simpa using he)]
      obtain ⟨j, j1, j2, j3⟩ := least_bit (b := b) (i.val + 1) ⟨t, by omega, t2⟩
      have hj := j.isLt
      have hadv : VisitInfo.advance ⟨⟨verAt v ver p, p⟩, canonInternal H m ver p, b, (1 : BitVec 16) <<< i.val⟩ =
          .ok ⟨⟨verAt v ver p, p⟩, canonInternal H m ver p, b, (1 : BitVec 16) <<< j.val⟩ := by
        unfold VisitInfo.advance
        rw [hr, ok_bind, if_neg (by simpa using he)]
        have := shiftLoop_ok (b := b) (f := 17) (i := ⟨i.val + 1, by omega⟩) (j := j) j1 j2 j3 (by omega)
        simp only
        rw [one_shl_succ i (by omega), this, ok_bind]
      rw [hadv, ok_bind]
      refine ⟨_, rfl, .inr ⟨p ++ [j], by simp, .snoc hstk h2 hb ((hb j).1 j2), ?_⟩⟩
      exact after_advance hp (by omega) (fun k k1 k2 => j3 k k1 ((hb k).2 k2))

/-- What the iterator has to know about the values. -/
structure ValsAt (R : Reader) (v : Version) (m : List Entry) (ver : List Nibble → Version)
    (x : Entry → Value) : Prop where
  root : ∀ e, m = [e] → R.getValue v e.1 = .ok (x e)
  node : ∀ q e, q ≠ [] → Jmt.pres m [] q → Jmt.under q m = [e] → R.getValue (ver q) e.1 = .ok (x e)

theorem nextLoop_spec (hm : NodupE m) (hs : SortedE m) (t : TreeAt H R.getNodeOption v m ver)
    {x : Entry → Value} (hx : ValsAt R v m ver x) {f : Nat} :
    ∀ {q stk}, StackAt H v m ver q stk → q ≠ [] → 66 ≤ q.length + f →
    ∃ e l stk', rest m q = e :: l ∧ Iter.nextLoop R v f stk = .ok (some (.ok (e.1, x e)), ⟨v, stk', false⟩) ∧
      ((stk' = [] ∧ l = []) ∨ ∃ q', q' ≠ [] ∧ StackAt H v m ver q' stk' ∧ rest m q' = l) := by
  induction f with
  | zero =>
    intro q stk h hq hf
    have := path_length_le (h.under hq)
    omega
  | succ f ih =>
    intro q stk h hq hf
    have hstk := h
    have hpres := h.pres (by have := h.two hq; intro hc; simp [hc] at this)
    cases h with
    | nil => exact absurd rfl hq
    | @snoc p stk i b hst h2 hb hi =>
      have hp := under_length_lt_of_two hm h2
      obtain ⟨c, hc⟩ := Option.isSome_iff_exists.1 ((canonChild_isSome (H := H) (ver := ver)).2 hi)
      have hv := (canonChild_some hc).2.1
      have hchild : (canonInternal H m ver p).childAtIdx (trailingZeros16 ((1 : BitVec 16) <<< i.val)) = .ok (i, c) := by
        unfold InternalNode.childAtIdx
        rw [tz_one]
        unfold Nibble.ofNat?
        rw [dif_pos i.isLt]
        have : (canonInternal H m ver p).child i = some c := hc
        simp [this]
      have hgen : NodeKey.genChild ⟨verAt v ver p, p⟩ c.version i = .ok ⟨verAt v ver (p ++ [i]), p ++ [i]⟩ := by
        have h1 : verAt v ver (p ++ [i]) = ver (p ++ [i]) := if_neg (by simp)
        unfold NodeKey.genChild
        rw [if_pos (by simpa [rootNibbleHeight] using hp), hv, h1]
      unfold Iter.nextLoop
      simp only [hchild, ok_bind]
      simp only [hgen, ok_bind]
      rw [t.read (.inr hpres)]
      rcases len_cases (Jmt.under (p ++ [i]) m) with g | ⟨e, g⟩ | g
      · exact absurd g hi
      · rw [canonNode_one g]
        have hval := hx.node _ _ hq hpres g
        have hva : verAt v ver (p ++ [i]) = ver (p ++ [i]) := if_neg (by simp)
        simp only [hva, hval]
        obtain ⟨stk', s1, s2⟩ := cleanupStack_spec hm hstk
        rw [s1, ok_bind]
        exact ⟨e, after m (p ++ [i]), stk', rest_leaf hs (path_length_le hi) g, rfl, s2⟩
      · rw [canonNode_two g]
        have hp' := under_length_lt_of_two hm g
        obtain ⟨bm, b1, b2⟩ := bitmaps_canon (H := H) (m := m) (ver := ver) (p ++ [i])
        obtain ⟨e, he⟩ := List.exists_mem_of_ne_nil _ hi
        have hun := under_next hp' (mem_under.1 he).1 (pos_eq_iff.2 (mem_under.1 he).2)
        obtain ⟨j, j1, j2, j3⟩ := tz_spec ((b2 _).2 hun)
        have hnew : VisitInfo.new ⟨verAt v ver (p ++ [i]), p ++ [i]⟩ (canonInternal H m ver (p ++ [i])) =
            .ok ⟨⟨verAt v ver (p ++ [i]), p ++ [i]⟩, canonInternal H m ver (p ++ [i]), bm.1, (1 : BitVec 16) <<< j.val⟩ := by
          unfold VisitInfo.new
          rw [b1, ok_bind, j1, if_neg]
          intro h0; rw [h0] at j2; simp at j2
        simp only [hnew, ok_bind]
        have hst' : StackAt H v m ver (p ++ [i] ++ [j]) _ := .snoc hstk g b2 ((b2 j).1 j2)
        have := ih hst' (by simp) (by simp only [List.length_append, List.length_singleton] at hf ⊢; omega)
        rw [rest_first hp' (fun k hk => j3 k ((b2 k).2 hk))] at this
        exact this

/-- From a good stack the iterator yields exactly what is left. -/
theorem yields_stack (hm : NodupE m) (hs : SortedE m) (t : TreeAt H R.getNodeOption v m ver)
    {x : Entry → Value} (hx : ValsAt R v m ver x) :
    ∀ {n : Nat} {q stk}, (rest m q).length = n → StackAt H v m ver q stk → q ≠ [] →
      Iter.Yields R ⟨v, stk, false⟩ ((rest m q).map (fun e => (e.1, x e))) := by
  intro n
  induction n with
  | zero =>
    intro q stk hn h hq
    obtain ⟨e, l, stk', h1, -⟩ := nextLoop_spec hm hs t hx h hq (f := 65) (by
      have : q.length ≠ 0 := fun h => hq (List.length_eq_zero_iff.1 h)
      omega)
    rw [h1] at hn; simp at hn
  | succ n ih =>
    intro q stk hn h hq
    obtain ⟨e, l, stk', h1, h2, h3⟩ := nextLoop_spec hm hs t hx h hq (f := 65) (by
      have : q.length ≠ 0 := fun h => hq (List.length_eq_zero_iff.1 h)
      omega)
    rw [h1, List.map_cons]
    refine .item (it' := ⟨v, stk', false⟩) ?_ ?_
    · have hne : stk ≠ [] := fun h' => hq (by rw [h'] at h; exact h.path_nil)
      unfold Iter.next
      match stk, hne with
      | a :: s, _ => simpa using h2
    · rcases h3 with ⟨rfl, rfl⟩ | ⟨q', q1, q2, q3⟩
      · refine .done ?_
        unfold Iter.next
        have : R.getNode (NodeKey.root v) = .ok (canonNode H m ver []) := by
          have := t.read (q := []) (.inl rfl)
          simpa [verAt, NodeKey.root] using this
        simp only [this]
        rw [canonNode_two (by simpa using h.two hq)]
        rfl
      · rw [← q3]
        exact ih (by rw [q3]; rw [h1] at hn; simpa using hn) q2 q1

end
end Jmt
