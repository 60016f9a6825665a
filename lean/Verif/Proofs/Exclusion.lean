import Verif.Model.Exclusion
import Verif.Proofs.Sorted
import Verif.Proofs.BytesView
import Verif.Proofs.ProofSim
/-!
# Exclusion proofs: the search finds the true neighbours
-/
namespace Jmt
open Spec (Entry)

/-! ### Directions -/

/-- Where an element beyond a subtree in this direction stands relative to it. -/
def Extreme.ord : Extreme → Ordering
  | .right => .lt
  | .left => .gt

/-- `a` comes before `b` when walking in direction `d`. -/
def Nearer : Extreme → List Nibble → List Nibble → Prop
  | .right, a, b => a < b
  | .left, a, b => b < a

/-- Nibble `j` lies beyond `i` in direction `d`. -/
def NBeyond : Extreme → Nibble → Nibble → Prop
  | .right, i, j => i.val < j.val
  | .left, i, j => j.val < i.val

theorem then_ord {a b : Ordering} (d : Extreme) : a.then b = d.ord ↔ a = d.ord ∨ (a = .eq ∧ b = d.ord) := by
  cases d
  · exact then_gt
  · exact then_lt

theorem compare_ord (d : Extreme) (i j : Nibble) : compare i.val j.val = d.ord ↔ NBeyond d i j := by
  cases d
  · simp only [Extreme.ord, NBeyond, Nat.compare_eq_gt]
  · simp only [Extreme.ord, NBeyond, Nat.compare_eq_lt]

/-- Under or beyond `q` against beyond `q`: the first is nearer. -/
theorem nearer_of_pos (d : Extreme) {q x y : List Nibble} (h : x.length = y.length) (hq : q.length ≤ x.length)
    (hx : pos q x = .eq) (hy : pos q y = d.ord) : Nearer d x y := by
  cases d
  · exact pos_trans (q := q) h.symm (h ▸ hq) (by rw [hy]; decide) (by rw [hx]; decide) (.inl (by rw [hy]; decide))
  · exact pos_trans h hq (by rw [hx]; decide) (by rw [hy]; decide) (.inr (by rw [hy]; decide))

theorem Nearer.irrefl {d : Extreme} {a : List Nibble} : ¬ Nearer d a a := by
  cases d <;> exact List.lt_irrefl _

theorem Nearer.asymm {d : Extreme} {a b : List Nibble} (h : Nearer d a b) : ¬ Nearer d b a := by
  cases d <;> exact fun h' => List.lt_irrefl _ (List.lt_trans h h')

/-! ### `min_by_key` and `max_by_key` -/

theorem foldl_some {α : Type} (f : Option α → α → Option α) (hf : ∀ a e, ∃ b, f a e = some b) (l : List α) (a : α) :
    ∃ b, l.foldl f (some a) = some b := by
  induction l generalizing a with
  | nil => exact ⟨a, rfl⟩
  | cons x l ih => obtain ⟨b, hb⟩ := hf (some a) x; simp only [List.foldl_cons, hb]; exact ih b

theorem minBy_aux : ∀ (l : List (Nibble × Child)) (a : Nibble × Child), ∃ b,
    l.foldl (fun acc e => match acc with
      | none => some e
      | some b => if e.1.val < b.1.val then some e else some b) (some a) = some b ∧
    (b = a ∨ b ∈ l) ∧ b.1.val ≤ a.1.val ∧ ∀ x ∈ l, b.1.val ≤ x.1.val := by
  intro l
  induction l with
  | nil => intro a; exact ⟨a, rfl, .inl rfl, Nat.le_refl _, by simp⟩
  | cons x l ih =>
    intro a
    simp only [List.foldl_cons]
    by_cases h : x.1.val < a.1.val
    · rw [if_pos h]
      obtain ⟨b, b1, b2, b3, b4⟩ := ih x
      refine ⟨b, b1, .inr ?_, by omega, ?_⟩
      · rcases b2 with rfl | b2
        · simp
        · simp [b2]
      · intro y hy
        rcases List.mem_cons.1 hy with rfl | hy
        · exact b3
        · exact b4 y hy
    · rw [if_neg h]
      obtain ⟨b, b1, b2, b3, b4⟩ := ih a
      refine ⟨b, b1, ?_, b3, ?_⟩
      · rcases b2 with rfl | b2
        · exact .inl rfl
        · exact .inr (by simp [b2])
      · intro y hy
        rcases List.mem_cons.1 hy with rfl | hy
        · omega
        · exact b4 y hy

theorem maxBy_aux : ∀ (l : List (Nibble × Child)) (a : Nibble × Child), ∃ b,
    l.foldl (fun acc e => match acc with
      | none => some e
      | some b => if e.1.val < b.1.val then some b else some e) (some a) = some b ∧
    (b = a ∨ b ∈ l) ∧ a.1.val ≤ b.1.val ∧ ∀ x ∈ l, x.1.val ≤ b.1.val := by
  intro l
  induction l with
  | nil => intro a; exact ⟨a, rfl, .inl rfl, Nat.le_refl _, by simp⟩
  | cons x l ih =>
    intro a
    simp only [List.foldl_cons]
    by_cases h : x.1.val < a.1.val
    · rw [if_pos h]
      obtain ⟨b, b1, b2, b3, b4⟩ := ih a
      refine ⟨b, b1, ?_, b3, ?_⟩
      · rcases b2 with rfl | b2
        · exact .inl rfl
        · exact .inr (by simp [b2])
      · intro y hy
        rcases List.mem_cons.1 hy with rfl | hy
        · omega
        · exact b4 y hy
    · rw [if_neg h]
      obtain ⟨b, b1, b2, b3, b4⟩ := ih x
      refine ⟨b, b1, .inr ?_, by omega, ?_⟩
      · rcases b2 with rfl | b2
        · simp
        · simp [b2]
      · intro y hy
        rcases List.mem_cons.1 hy with rfl | hy
        · exact b3
        · exact b4 y hy

/-- The element of a list of children nearest in direction `d`. -/
def nearestOf : Extreme → List (Nibble × Child) → Option (Nibble × Child)
  | .right => minByNibble
  | .left => maxByNibble

theorem nearestOf_nil (d : Extreme) : nearestOf d [] = none := by cases d <;> rfl

theorem nearestOf_cons (d : Extreme) (a : Nibble × Child) (l) : ∃ b, nearestOf d (a :: l) = some b ∧ b ∈ a :: l ∧
    ∀ x ∈ a :: l, ¬ NBeyond d x.1 b.1 := by
  cases d
  · obtain ⟨b, b1, b2, b3, b4⟩ := maxBy_aux l a
    refine ⟨b, b1, by simpa using b2, fun x hx => ?_⟩
    simp only [NBeyond]
    rcases List.mem_cons.1 hx with rfl | hx
    · omega
    · have := b4 x hx; omega
  · obtain ⟨b, b1, b2, b3, b4⟩ := minBy_aux l a
    refine ⟨b, b1, by simpa using b2, fun x hx => ?_⟩
    simp only [NBeyond]
    rcases List.mem_cons.1 hx with rfl | hx
    · omega
    · have := b4 x hx; omega

section
variable {H : Hasher} {R : Reader} {m : List Entry} {ver : List Nibble → Version} {v : Version} {p : List Nibble}

theorem mem_iter_canon {e : Nibble × Child} : e ∈ (canonInternal H m ver p).children.iter ↔
    canonChild H m ver (p ++ [e.1]) = some e.2 := mem_iter

theorem exists_iter_canon {i : Nibble} (h : under (p ++ [i]) m ≠ []) :
    ∃ c, (i, c) ∈ (canonInternal H m ver p).children.iter := by
  have := canonChild_isSome (H := H) (ver := ver).2 h
  obtain ⟨c, hc⟩ := Option.isSome_iff_exists.1 this
  exact ⟨c, mem_iter_canon.2 hc⟩

theorem neighbor_eq (n : InternalNode) (i : Nibble) (d : Extreme) : ∃ P : Nibble × Child → Bool,
    (∀ e, P e = true ↔ NBeyond d i e.1) ∧
    neighborNibble n i d = (nearestOf d (n.children.iter.filter P)).map (fun e => (e.1, e.2.version)) := by
  cases d
  · exact ⟨fun e => decide (e.1.val < i.val), fun e => by simp [NBeyond], rfl⟩
  · exact ⟨fun e => decide (i.val < e.1.val), fun e => by simp [NBeyond], rfl⟩

theorem neighborNibble_canon (d : Extreme) (i : Nibble) :
    (neighborNibble (canonInternal H m ver p) i d = none ∧ ∀ j, NBeyond d i j → under (p ++ [j]) m = []) ∨
    ∃ j, neighborNibble (canonInternal H m ver p) i d = some (j, ver (p ++ [j])) ∧ NBeyond d i j ∧
      under (p ++ [j]) m ≠ [] ∧ ∀ x, NBeyond d i x → under (p ++ [x]) m ≠ [] → ¬ NBeyond d x j := by
  obtain ⟨P, hP, he⟩ := neighbor_eq (canonInternal H m ver p) i d
  rw [he]
  cases hl : (canonInternal H m ver p).children.iter.filter P with
  | nil =>
    left
    rw [nearestOf_nil]
    refine ⟨rfl, fun j hj => ?_⟩
    apply Decidable.byContradiction
    intro hne
    obtain ⟨c, hc⟩ := exists_iter_canon (H := H) (ver := ver) hne
    have := List.filter_eq_nil_iff.1 hl (j, c) hc
    exact this ((hP _).2 hj)
  | cons a l =>
    right
    obtain ⟨b, b1, b2, b3⟩ := nearestOf_cons d a l
    rw [← hl] at b2 b3
    rw [b1]
    have hb := List.mem_filter.1 b2
    have hc := canonChild_some (mem_iter_canon.1 hb.1)
    refine ⟨b.1, by rw [Option.map_some, hc.2.1], (hP _).1 hb.2, hc.2.2.2.2, fun x hx hne => ?_⟩
    obtain ⟨c, hcx⟩ := exists_iter_canon (H := H) (ver := ver) hne
    exact b3 (x, c) (List.mem_filter.2 ⟨hcx, (hP _).2 hx⟩)

theorem extremeNibble_canon (d : Extreme) (hp : p.length < 64) (hne : under p m ≠ []) :
    ∃ j, extremeNibble (canonInternal H m ver p) d.opposite = some j ∧ under (p ++ [j]) m ≠ [] ∧
      ∀ x, under (p ++ [x]) m ≠ [] → ¬ NBeyond d x j := by
  have he : extremeNibble (canonInternal H m ver p) d.opposite =
      (nearestOf d (canonInternal H m ver p).children.iter).map Prod.fst := by cases d <;> rfl
  rw [he]
  obtain ⟨e, hm⟩ := List.exists_mem_of_ne_nil _ hne
  have hmem := mem_under.1 hm
  obtain ⟨c, hc⟩ := exists_iter_canon (H := H) (ver := ver) (under_next hp hmem.1 (pos_eq_iff.2 hmem.2))
  cases hl : (canonInternal H m ver p).children.iter with
  | nil => rw [hl] at hc; simp at hc
  | cons a l =>
    obtain ⟨b, b1, b2, b3⟩ := nearestOf_cons d a l
    rw [← hl] at b2 b3
    rw [b1]
    have hcs := canonChild_some (mem_iter_canon.1 b2)
    refine ⟨b.1, rfl, hcs.2.2.2.2, fun x hx => ?_⟩
    obtain ⟨c', hc'⟩ := exists_iter_canon (H := H) (ver := ver) hx
    exact b3 (x, c') hc'

/-! ### `get_only_child_without_siblings` -/

theorem onlyChild_without_loop {n : InternalNode} {getNode} {nk : NodeKey} {i : Nibble} {bm} :
    ∀ (h : Nat) (acc : List SMNode) {ck acc'},
      n.getChildWithSiblingsLoop H getNode nk i true bm h acc = .ok (ck, acc') →
      n.getOnlyChildWithoutSiblingsLoop nk i bm h = .ok ck := by
  intro h
  induction h with
  | zero => intro acc ck acc' hh; simp [InternalNode.getChildWithSiblingsLoop] at hh
  | succ h ih =>
    intro acc ck acc' hh
    unfold InternalNode.getChildWithSiblingsLoop at hh
    unfold InternalNode.getOnlyChildWithoutSiblingsLoop
    obtain ⟨sib, -, hh⟩ := bind_ok_inv hh
    obtain ⟨r, hr, hh⟩ := bind_ok_inv hh
    have hr' : rangeBitmaps (childHalfStart i h) (2 ^ h) bm = .ok r := hr
    rw [hr', ok_bind]
    by_cases h0 : r.1 = 0#16
    · rw [if_pos h0] at hh ⊢
      cases hh; rfl
    · rw [if_neg h0] at hh ⊢
      simp only [Bool.true_and, Bool.not_true, Bool.false_and, Bool.false_eq_true, if_false] at hh
      by_cases h1 : hasOnlyChild (2 ^ h) r.1 r.2 = true
      · rw [if_pos h1] at hh ⊢
        obtain ⟨x, hx, hh⟩ := bind_ok_inv hh
        obtain ⟨y, hy, hh⟩ := bind_ok_inv hh
        rw [hx, ok_bind]
        simp only [hy, ok_bind]
        cases hh; rfl
      · rw [if_neg h1] at hh ⊢
        exact ih _ hh

theorem onlyChild_without (hm : NodupE m) (h2 : 2 ≤ (under p m).length) {getNode}
    (hk : KnowsKids H m ver p getNode) (w : Version) (i : Nibble) :
    ∃ ck, (canonInternal H m ver p).getOnlyChildWithoutSiblings ⟨w, p⟩ i = .ok ck ∧
      OnlyChildRes m ver p i ck (walk H m (pathBits p) (nibbleBits i)).2 := by
  obtain ⟨ck, h1, hres⟩ := onlyChild_canon hm (canonSlots_self (H := H) (m := m) (ver := ver)) h2 hk w i
  refine ⟨ck, ?_, hres⟩
  unfold InternalNode.getChildWithSiblings at h1
  unfold InternalNode.getOnlyChildWithoutSiblings
  obtain ⟨bm, hb, h1⟩ := bind_ok_inv h1
  rw [hb, ok_bind]
  exact onlyChild_without_loop 4 [] h1

/-! ### `get_extreme_key_hash` -/

/-- The extreme entry below a present path. -/
theorem extremeKey_spec (hm : NodupE m) (t : TreeAt H R.getNodeOption v m ver) (d : Extreme) :
    ∀ (fuel depth : Nat) (nk : NodeKey) (q : List Nibble), nk.path = q → R.getNode nk = .ok (canonNode H m ver q) →
      under q m ≠ [] → 65 ≤ fuel + q.length →
      ∃ e, getExtremeKeyHash R v d.opposite fuel depth nk = .ok e.1 ∧ e ∈ under q m ∧
        ∀ e' ∈ under q m, ¬ Nearer d e'.1.nibbles e.1.nibbles := by
  intro fuel
  induction fuel with
  | zero =>
    intro depth nk q _ _ hne hf
    have := path_length_le hne
    omega
  | succ fuel ih =>
    intro depth nk q hq hn hne hf
    unfold getExtremeKeyHash
    rw [hn]
    simp only [ok_bind]
    rcases len_cases (under q m) with h | ⟨e, h⟩ | h
    · exact absurd h hne
    · rw [canonNode_one h]
      refine ⟨e, rfl, by rw [h]; simp, fun e' he' => ?_⟩
      rw [h, List.mem_singleton] at he'
      subst he'
      exact Nearer.irrefl
    · rw [canonNode_two h]
      have hlen := under_length_lt_of_two hm h
      obtain ⟨j, j1, j2, j3⟩ := extremeNibble_canon (H := H) (ver := ver) d hlen hne
      obtain ⟨w, q'⟩ := nk
      simp only at hq; subst hq
      obtain ⟨ck, c1, c2⟩ := onlyChild_without hm h (t.kids h) w j
      simp only [j1, c1, ok_bind]
      -- the child found is the child at `j`
      have hck : ck = some ⟨ver (q' ++ [j]), q' ++ [j]⟩ := by
        have hpre : (walk H m (pathBits q') (nibbleBits j)).2 <+: pathBits (q' ++ [j]) := by
          have := walk_prefix (H := H) (m := m) (pathBits q') (nibbleBits j)
          rw [pathBits_append]
          simpa [pathBits] using this
        obtain ⟨x, hx⟩ := List.exists_mem_of_ne_nil _ j2
        have hx' : x ∈ ub (walk H m (pathBits q') (nibbleBits j)).2 m := by
          rw [mem_ub]
          have := mem_ub.1 hx
          exact ⟨this.1, hpre.trans this.2⟩
        rcases len_cases (ub (walk H m (pathBits q') (nibbleBits j)).2 m) with g | ⟨e, g⟩ | g
        · rw [g] at hx'; simp at hx'
        · obtain ⟨i, i1, i2⟩ := c2.one e g
          rw [g, List.mem_singleton] at hx'
          subst hx'
          have h1 : x ∈ under (q' ++ [i]) m := by rw [i2]; simp
          have h3 := List.prefix_of_prefix_length_le (mem_under.1 h1).2 (mem_under.1 hx).2 (by simp)
          have h4 := List.IsPrefix.eq_of_length h3 (by simp)
          rw [i1, h4]
        · exact (c2.two g).2
      rw [hck]
      have hkid := t.kids h j j2
      obtain ⟨e, e1, e2, e3⟩ := ih (depth + 1) ⟨ver (q' ++ [j]), q' ++ [j]⟩ _ rfl hkid j2 (by simp; omega)
      refine ⟨e, e1, ?_, fun e' he' => ?_⟩
      · rw [mem_under] at e2 ⊢
        exact ⟨e2.1, (List.prefix_append _ _).trans e2.2⟩
      · have hu := mem_under.1 he'
        have hx := under_next hlen hu.1 (pos_eq_iff.2 hu.2)
        by_cases hxj : e'.1.nibbles[q'.length]'(by simpa using hlen) = j
        · apply e3
          rw [mem_under]
          refine ⟨hu.1, ?_⟩
          rw [← pos_eq_iff, pos_child hlen, pos_eq_iff.2 hu.2, hxj]
          simp
        · have hnb := j3 _ hx
          -- `e'` lies beyond the child at `j`
          have hb : pos (q' ++ [j]) e'.1.nibbles = d.ord := by
            rw [pos_child hlen, then_ord, compare_ord]
            refine .inr ⟨pos_eq_iff.2 hu.2, ?_⟩
            revert hnb
            generalize e'.1.nibbles[q'.length]'(by simpa using hlen) = y at hxj
            intro hnb
            have hv : y.val ≠ j.val := fun hc => hxj (Fin.ext hc)
            cases d <;> simp only [NBeyond] at hnb ⊢ <;> omega
          exact (nearer_of_pos d (by simp) (by simp; omega) (pos_eq_iff.2 (mem_under.1 e2).2) hb).asymm

/-! ### `search_closest_extreme_node` -/

/-- The internal nodes above `q`, root first. -/
inductive Parents (H : Hasher) (m : List Entry) (ver : List Nibble → Version) : List Nibble → List InternalNode → Prop
  | nil : Parents H m ver [] []
  | snoc {p ps} (i : Nibble) : Parents H m ver p ps → 2 ≤ (under p m).length →
      Parents H m ver (p ++ [i]) (ps ++ [canonInternal H m ver p])

/-- `r` is the key of the entry of `m` beyond `q` in direction `d` that is nearest, `none` if there is no such
entry. -/
def NearestBeyond (m : List Entry) (d : Extreme) (q : List Nibble) : Option KeyHash → Prop
  | none => ∀ e ∈ m, pos q e.1.nibbles ≠ d.ord
  | some k => ∃ e ∈ m, e.1 = k ∧ pos q e.1.nibbles = d.ord ∧
      ∀ e' ∈ m, pos q e'.1.nibbles = d.ord → ¬ Nearer d e'.1.nibbles e.1.nibbles

theorem searchClosest_spec (hm : NodupE m) (t : TreeAt H R.getNodeOption v m ver) (d : Extreme) {q : List Nibble} {ps}
    (h : Parents H m ver q ps) : ∃ r, searchClosestExtremeNode R v d q ps = .ok r ∧ NearestBeyond m d q r := by
  induction h with
  | nil =>
    refine ⟨none, rfl, fun e _ => ?_⟩
    simp only [pos]
    cases d <;> decide
  | @snoc p ps i hpar h2 ih =>
    unfold searchClosestExtremeNode
    rw [List.reverse_append, List.reverse_append, List.reverse_singleton, List.reverse_singleton]
    simp only [List.singleton_append]
    unfold searchClosestLoop
    have hlen := under_length_lt_of_two hm h2
    rcases neighborNibble_canon (H := H) (m := m) (ver := ver) (p := p) d i with ⟨hn, hall⟩ | ⟨j, hn, hij, hne, hmin⟩
    · rw [hn]
      simp only
      obtain ⟨r, r1, r2⟩ := ih
      refine ⟨r, r1, ?_⟩
      have heq : ∀ e ∈ m, (pos (p ++ [i]) e.1.nibbles = d.ord ↔ pos p e.1.nibbles = d.ord) := by
        intro e he
        rw [pos_child hlen, then_ord, compare_ord]
        constructor
        · rintro (h | ⟨h, h'⟩)
          · exact h
          · exact absurd (hall _ h') (under_next hlen he h)
        · exact .inl
      cases r with
      | none => exact fun e he hc => r2 e he ((heq e he).1 hc)
      | some k =>
        obtain ⟨e, e1, e2, e3, e4⟩ := r2
        exact ⟨e, e1, e2, (heq e e1).2 e3, fun e' he' hc => e4 e' he' ((heq e' he').1 hc)⟩
    · rw [hn]
      simp only [List.reverse_reverse]
      have hkid := t.kids h2 j hne
      obtain ⟨e, e1, e2, e3⟩ := extremeKey_spec hm t d (rootNibbleHeight + 1 - (p ++ [j]).length) (p ++ [j]).length
        ⟨ver (p ++ [j]), p ++ [j]⟩ (p ++ [j]) rfl hkid hne (by simp [rootNibbleHeight]; omega)
      rw [e1, ok_bind]
      refine ⟨some e.1, rfl, e, (mem_under.1 e2).1, rfl, ?_, ?_⟩
      · have he := pos_eq_iff.2 (mem_under.1 e2).2
        rw [pos_child hlen] at he
        have hp : pos p e.1.nibbles = .eq := by
          rw [pos_eq_iff]; exact (List.prefix_append _ _).trans (mem_under.1 e2).2
        rw [hp] at he
        rw [pos_child hlen, then_ord, compare_ord]
        refine .inr ⟨hp, ?_⟩
        have hv : j.val = (e.1.nibbles[p.length]'(by simpa using hlen)).val := by simpa [Ordering.then] using he
        cases d <;> simp only [NBeyond] at hij ⊢ <;> omega
      · intro e' he' hb
        rw [pos_child hlen, then_ord, compare_ord] at hb
        have hej := pos_eq_iff.2 (mem_under.1 e2).2
        rcases hb with hb | ⟨hb, hb'⟩
        · have hp : pos p e.1.nibbles = .eq := by
            rw [pos_eq_iff]; exact (List.prefix_append _ _).trans (mem_under.1 e2).2
          exact (nearer_of_pos d (by simp) (by simp; omega) hp hb).asymm
        · by_cases hxj : e'.1.nibbles[p.length]'(by simpa using hlen) = j
          · apply e3
            rw [mem_under]
            refine ⟨he', ?_⟩
            rw [← pos_eq_iff, pos_child hlen, hb, hxj]
            simp
          · have hnb := hmin _ hb' (under_next hlen he' hb)
            have hbb : pos (p ++ [j]) e'.1.nibbles = d.ord := by
              rw [pos_child hlen, then_ord, compare_ord]
              refine .inr ⟨hb, ?_⟩
              revert hnb
              generalize e'.1.nibbles[p.length]'(by simpa using hlen) = y at hxj
              intro hnb
              have hv : y.val ≠ j.val := fun hc => hxj (Fin.ext hc)
              cases d <;> simp only [NBeyond] at hnb ⊢ <;> omega
            exact (nearer_of_pos d (by simp) (by simp; omega) hej hbb).asymm

/-! ### `search_for_closest_node` -/

theorem searchFor_spec {k : KeyHash} (hm : NodupE m) (t : TreeAt H R.getNodeOption v m ver) :
    ∀ (rem : List Nibble) (fuel depth : Nat) (nk : NodeKey) (p : List Nibble) (ps : List InternalNode),
      p ++ rem = k.nibbles → nk.path = p → R.getNode nk = .ok (canonNode H m ver p) → under p m ≠ [] →
      Parents H m ver p ps → rem.length < fuel →
      ∃ q ps', q <+: k.nibbles ∧ Parents H m ver q ps' ∧
        ((searchForClosestLoop R v fuel depth nk p rem ps = .ok (.foundInternal q ps') ∧ under q m = []) ∨
         ∃ e b, searchForClosestLoop R v fuel depth nk p rem ps = .ok (.foundLeaf e.1 q ps') ∧
           b <+: pathBits q ∧ ub b m = [e]) := by
  intro rem
  induction rem with
  | nil =>
    intro fuel depth nk p ps hk hq hn hne hpar hf
    obtain ⟨fuel, rfl⟩ : ∃ f, fuel = f + 1 := ⟨fuel - 1, by omega⟩
    unfold searchForClosestLoop
    rw [hn]
    simp only [ok_bind]
    refine ⟨p, ps, ⟨[], hk⟩, hpar, .inr ?_⟩
    rcases len_cases (under p m) with h | ⟨e, h⟩ | h
    · exact absurd h hne
    · rw [canonNode_one h]
      exact ⟨e, pathBits p, rfl, List.prefix_rfl, h⟩
    · have := under_length_lt_of_two hm h
      have hl := congrArg List.length hk
      simp at hl
      omega
  | cons i rem ih =>
    intro fuel depth nk p ps hk hq hn hne hpar hf
    obtain ⟨fuel, rfl⟩ : ∃ f, fuel = f + 1 := ⟨fuel - 1, by omega⟩
    unfold searchForClosestLoop
    rw [hn]
    simp only [ok_bind]
    rcases len_cases (under p m) with h | ⟨e, h⟩ | h
    · exact absurd h hne
    · rw [canonNode_one h]
      exact ⟨p, ps, ⟨_, hk⟩, hpar, .inr ⟨e, pathBits p, rfl, List.prefix_rfl, h⟩⟩
    · rw [canonNode_two h]
      obtain ⟨w, p'⟩ := nk
      simp only at hq; subst hq
      obtain ⟨ck, c1, c2⟩ := onlyChild_without hm h (t.kids h) w i
      simp only [c1, ok_bind]
      have hk' : p' ++ [i] ++ rem = k.nibbles := by rw [← hk]; simp
      have hpar' := Parents.snoc i hpar h
      have hpre : (walk H m (pathBits p') (nibbleBits i)).2 <+: pathBits (p' ++ [i]) := by
        have := walk_prefix (H := H) (m := m) (pathBits p') (nibbleBits i)
        rw [pathBits_append]
        simpa [pathBits] using this
      rcases len_cases (ub (walk H m (pathBits p') (nibbleBits i)).2 m) with g | ⟨e, g⟩ | g
      · rw [c2.nil g]
        refine ⟨p' ++ [i], _, ⟨rem, hk'⟩, hpar', .inl ⟨rfl, ?_⟩⟩
        apply List.eq_nil_iff_forall_not_mem.2
        intro x hx
        have hx' := mem_ub.1 hx
        have : x ∈ ub (walk H m (pathBits p') (nibbleBits i)).2 m := mem_ub.2 ⟨hx'.1, hpre.trans hx'.2⟩
        rw [g] at this; simp at this
      · obtain ⟨j, j1, j2⟩ := c2.one e g
        rw [j1]
        have hkid := t.kids h j (by rw [j2]; simp)
        rw [canonNode_one j2] at hkid
        obtain ⟨fuel, rfl⟩ : ∃ f, fuel = f + 1 := ⟨fuel - 1, by simp at hf; omega⟩
        refine ⟨p' ++ [i], _, ⟨rem, hk'⟩, hpar', .inr ⟨e, _, ?_, hpre, g⟩⟩
        simp only
        unfold searchForClosestLoop
        rw [hkid]
        rfl
      · obtain ⟨g1, g2⟩ := c2.two g
        rw [g2]
        rw [g1] at g
        have hne' : under (p' ++ [i]) m ≠ [] := by
          intro hc; have : (under (p' ++ [i]) m).length = 0 := by rw [hc]; rfl
          unfold under at this; omega
        exact ih fuel (depth + 1) ⟨ver (p' ++ [i]), p' ++ [i]⟩ (p' ++ [i]) _ hk' rfl (t.kids h i hne') hne' hpar'
          (by simp at hf; omega)

/-! ### `get_bounding_path` -/

/-- `l` is the key of the greatest entry below `k`, `none` if there is none. -/
def IsPred (m : List Entry) (k : KeyHash) : Option KeyHash → Prop
  | none => ∀ e ∈ m, ¬ e.1.val < k.val
  | some l => l.val < k.val ∧ (∃ e ∈ m, e.1 = l) ∧ ∀ e ∈ m, e.1.val < k.val → ¬ l.val < e.1.val

/-- `r` is the key of the least entry above `k`, `none` if there is none. -/
def IsSucc (m : List Entry) (k : KeyHash) : Option KeyHash → Prop
  | none => ∀ e ∈ m, ¬ k.val < e.1.val
  | some r => k.val < r.val ∧ (∃ e ∈ m, e.1 = r) ∧ ∀ e ∈ m, k.val < e.1.val → ¬ e.1.val < r.val

theorem isSucc_of {k : KeyHash} {q : List Nibble} (hq : q <+: k.nibbles)
    (hall : ∀ e ∈ m, k.val < e.1.val → pos q e.1.nibbles = .lt) {r} (h : NearestBeyond m .right q r) : IsSucc m k r := by
  have hlq : q.length ≤ 64 := by have := hq.length_le; simpa using this
  have hconv : ∀ e ∈ m, pos q e.1.nibbles = .lt → k.val < e.1.val := by
    intro e _ hp
    rw [← nibbles_lt]
    exact nearer_of_pos .right (by simp) (by simpa using hlq) (pos_eq_iff.2 hq) hp
  cases r with
  | none => exact fun e he hc => h e he (hall e he hc)
  | some r =>
    obtain ⟨e, e1, e2, e3, e4⟩ := h
    refine ⟨e2 ▸ hconv e e1 e3, ⟨e, e1, e2⟩, fun e' he' hk hc => ?_⟩
    rw [← e2, ← nibbles_lt] at hc
    exact e4 e' he' (hall e' he' hk) hc

theorem isPred_of {k : KeyHash} {q : List Nibble} (hq : q <+: k.nibbles)
    (hall : ∀ e ∈ m, e.1.val < k.val → pos q e.1.nibbles = .gt) {r} (h : NearestBeyond m .left q r) : IsPred m k r := by
  have hlq : q.length ≤ 64 := by have := hq.length_le; simpa using this
  have hconv : ∀ e ∈ m, pos q e.1.nibbles = .gt → e.1.val < k.val := by
    intro e _ hp
    rw [← nibbles_lt]
    exact nearer_of_pos .left (by simp) (by simpa using hlq) (pos_eq_iff.2 hq) hp
  cases r with
  | none => exact fun e he hc => h e he (hall e he hc)
  | some r =>
    obtain ⟨e, e1, e2, e3, e4⟩ := h
    refine ⟨e2 ▸ hconv e e1 e3, ⟨e, e1, e2⟩, fun e' he' hk hc => ?_⟩
    rw [← e2, ← nibbles_lt] at hc
    exact e4 e' he' (hall e' he' hk) hc

/-- Bit order of keys. -/
theorem keyBits_lt {k k' : KeyHash} : keyBits k < keyBits k' ↔ k.val < k'.val := by
  unfold keyBits
  rw [pathBits_lt (by rw [nibbles_length, nibbles_length]), nibbles_lt]

/-- Two lists sharing a prefix the third does not have compare the same way with it. -/
theorem lt_of_prefix : ∀ {b x y z : List Bool}, b <+: y → b <+: z → ¬ b <+: x → b.length ≤ x.length → x < y → x < z := by
  intro b
  induction b with
  | nil => intro x y z _ _ h; exact absurd List.nil_prefix h
  | cons a b ih =>
    intro x y z hy hz hx hl hlt
    obtain ⟨ty, rfl⟩ := hy
    obtain ⟨tz, rfl⟩ := hz
    cases x with
    | nil => simp at hl
    | cons c x =>
      simp only [List.cons_append, List.cons_lt_cons_iff] at hlt ⊢
      rcases hlt with h | ⟨h, h'⟩
      · exact .inl h
      · refine .inr ⟨h, ih (List.prefix_append _ _) (List.prefix_append _ _) (fun hc => hx ?_) (by simpa using hl) h'⟩
        rw [h]; exact List.cons_prefix_cons.2 ⟨rfl, hc⟩

theorem gt_of_prefix : ∀ {b x y z : List Bool}, b <+: y → b <+: z → ¬ b <+: x → b.length ≤ x.length → y < x → z < x := by
  intro b
  induction b with
  | nil => intro x y z _ _ h; exact absurd List.nil_prefix h
  | cons a b ih =>
    intro x y z hy hz hx hl hlt
    obtain ⟨ty, rfl⟩ := hy
    obtain ⟨tz, rfl⟩ := hz
    cases x with
    | nil => simp at hl
    | cons c x =>
      simp only [List.cons_append, List.cons_lt_cons_iff] at hlt ⊢
      rcases hlt with h | ⟨h, h'⟩
      · exact .inl h
      · refine .inr ⟨h, ih (List.prefix_append _ _) (List.prefix_append _ _) (fun hc => hx ?_) (by simpa using hl) h'⟩
        rw [← h]; exact List.cons_prefix_cons.2 ⟨rfl, hc⟩

theorem getBoundingPath_spec {k : KeyHash} (hm : NodupE m) (t : TreeAt H R.getNodeOption v m ver) (hne : m ≠ [])
    (habs : ∀ e ∈ m, e.1 ≠ k) :
    ∃ l r, getBoundingPath R k v = .ok (l, r) ∧ IsPred m k l ∧ IsSucc m k r := by
  obtain ⟨q, ps, hq, hpar, hres⟩ := searchFor_spec (k := k) hm t k.nibbles (rootNibbleHeight + 1) 0 (NodeKey.root v) [] []
    rfl rfl (getNode_root t) (by simpa using hne) .nil (by rw [nibbles_length]; decide)
  have hlq : q.length ≤ 64 := by have := hq.length_le; simpa using this
  obtain ⟨r, r1, r2⟩ := searchClosest_spec hm t .right hpar
  obtain ⟨l, l1, l2⟩ := searchClosest_spec hm t .left hpar
  unfold getBoundingPath searchForClosestNode
  -- where an entry not below `q` stands
  have hlt : ∀ e ∈ m, ¬ q <+: e.1.nibbles → k.val < e.1.val → pos q e.1.nibbles = .lt := by
    intro e he hnp hk
    match hpos : pos q e.1.nibbles with
    | .lt => rfl
    | .eq => exact absurd (pos_eq_iff.1 hpos) hnp
    | .gt =>
      have := nearer_of_pos .left (x := k.nibbles) (y := e.1.nibbles) (by simp) (by simpa using hlq) (pos_eq_iff.2 hq) hpos
      have := nibbles_lt.1 this
      exact absurd (List.lt_trans hk this) (List.lt_irrefl _)
  have hgt : ∀ e ∈ m, ¬ q <+: e.1.nibbles → e.1.val < k.val → pos q e.1.nibbles = .gt := by
    intro e he hnp hk
    match hpos : pos q e.1.nibbles with
    | .gt => rfl
    | .eq => exact absurd (pos_eq_iff.1 hpos) hnp
    | .lt =>
      have := nearer_of_pos .right (x := k.nibbles) (y := e.1.nibbles) (by simp) (by simpa using hlq) (pos_eq_iff.2 hq) hpos
      have := nibbles_lt.1 this
      exact absurd (List.lt_trans hk this) (List.lt_irrefl _)
  rcases hres with ⟨h1, h2⟩ | ⟨e, b, h1, hb, hub⟩
  · rw [h1, ok_bind]
    simp only [r1, l1, ok_bind]
    have hnone : ∀ e ∈ m, ¬ q <+: e.1.nibbles := by
      intro e he hp
      have : e ∈ under q m := mem_under.2 ⟨he, hp⟩
      rw [h2] at this; simp at this
    exact ⟨l, r, rfl, isPred_of hq (fun e he => hgt e he (hnone e he)) l2, isSucc_of hq (fun e he => hlt e he (hnone e he)) r2⟩
  · rw [h1, ok_bind]
    simp only
    have hemem : e ∈ ub b m := by rw [hub]; simp
    have hem := mem_ub.1 hemem
    have hbk : b <+: keyBits k := hb.trans (pathBits_prefix.2 hq)
    have hbl : b.length ≤ 256 := by have := hbk.length_le; simpa using this
    -- an entry other than `e` does not have the prefix `b`, hence is not below `q`
    have hother : ∀ e' ∈ m, e' ≠ e → ¬ b <+: keyBits e'.1 := by
      intro e' he' hn hp
      have : e' ∈ ub b m := mem_ub.2 ⟨he', hp⟩
      rw [hub, List.mem_singleton] at this
      exact hn this
    have hotherq : ∀ e' ∈ m, e' ≠ e → ¬ q <+: e'.1.nibbles := by
      intro e' he' hn hp
      exact hother e' he' hn (hb.trans (pathBits_prefix.2 hp))
    by_cases hlek : e.1.val < k.val
    · rw [if_pos hlek]
      simp only [r1, ok_bind]
      refine ⟨some e.1, r, rfl, ⟨hlek, ⟨e, hem.1, rfl⟩, fun e' he' hk hc => ?_⟩, isSucc_of hq (fun e' he' hk => ?_) r2⟩
      · have hn : e' ≠ e := by rintro rfl; exact List.lt_irrefl _ hc
        have := lt_of_prefix hbk hem.2 (hother e' he' hn) (by simpa using hbl) (keyBits_lt.2 hk)
        exact List.lt_irrefl _ (List.lt_trans hc (keyBits_lt.1 this))
      · have hn : e' ≠ e := by rintro rfl; exact List.lt_irrefl _ (List.lt_trans hk hlek)
        exact hlt e' he' (hotherq e' he' hn) hk
    · rw [if_neg hlek]
      have hkle : k.val < e.1.val := by
        have hne' : e.1 ≠ k := habs e hem.1
        rcases List.le_iff_lt_or_eq.1 (List.not_lt.1 hlek) with h | h
        · exact h
        · exact absurd (Subtype.ext h.symm) hne'
      rw [if_pos hkle]
      simp only [l1, ok_bind]
      refine ⟨l, some e.1, rfl, isPred_of hq (fun e' he' hk => ?_) l2, ⟨hkle, ⟨e, hem.1, rfl⟩, fun e' he' hk hc => ?_⟩⟩
      · have hn : e' ≠ e := by rintro rfl; exact List.lt_irrefl _ (List.lt_trans hk hkle)
        exact hgt e' he' (hotherq e' he' hn) hk
      · have hn : e' ≠ e := by rintro rfl; exact List.lt_irrefl _ hc
        have := gt_of_prefix hbk hem.2 (hother e' he' hn) (by simpa using hbl) (keyBits_lt.2 hk)
        exact List.lt_irrefl _ (List.lt_trans hc (keyBits_lt.1 this))

end
end Jmt
