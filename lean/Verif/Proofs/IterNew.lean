import Verif.Proofs.Iterate
/-!
# Constructing iterators: by starting key and by index
-/
namespace Jmt
open Spec (Entry)

section
variable {H : Hasher} {R : Reader} {v : Version} {m : List Entry} {ver : List Nibble → Version}
  {p q s : List Nibble} {stk : List VisitInfo}

theorem pos_prefix (h : p <+: s) (x : List Nibble) (hne : pos p x ≠ .eq) : pos s x = pos p x := by
  obtain ⟨r, rfl⟩ := h
  rw [pos_append]
  cases hp : pos p x
  · rfl
  · exact absurd hp hne
  · rfl

/-- All entries below `p` are before `s`. -/
theorem rest_eq_after (h : p <+: s) (hall : ∀ e ∈ m, p <+: e.1.nibbles → pos s e.1.nibbles = .gt) :
    rest m s = after m p := by
  apply List.filter_congr
  intro e he
  rw [Bool.eq_iff_iff, bne_iff_ne, beq_iff_eq]
  by_cases hp : pos p e.1.nibbles = .eq
  · rw [hp, hall e he (pos_eq_iff.1 hp)]; simp
  · rw [pos_prefix h _ hp]
    cases hq : pos p e.1.nibbles
    · simp
    · exact absurd hq hp
    · simp

/-- No entry below `p` is before `s`. -/
theorem rest_eq_rest (h : p <+: s) (hall : ∀ e ∈ m, p <+: e.1.nibbles → pos s e.1.nibbles ≠ .gt) :
    rest m s = rest m p := by
  apply List.filter_congr
  intro e he
  rw [Bool.eq_iff_iff, bne_iff_ne, bne_iff_ne]
  by_cases hp : pos p e.1.nibbles = .eq
  · have := hall e he (pos_eq_iff.1 hp)
    rw [hp]; simp [this]
  · rw [pos_prefix h _ hp]

theorem newNext_ok {i : Nibble} (nk : NodeKey) (p : List Nibble)
    (h : ∃ j : Nibble, i.val ≤ j.val ∧ under (p ++ [j]) m ≠ []) :
    ∃ b j, VisitInfo.newNextChildToVisit nk (canonInternal H m ver p) i =
        .ok ⟨nk, canonInternal H m ver p, b, (1 : BitVec 16) <<< (j : Nibble).val⟩ ∧
      (∀ k : Nibble, b.getLsbD k.val = true ↔ under (p ++ [k]) m ≠ []) ∧
      i.val ≤ j.val ∧ under (p ++ [j]) m ≠ [] ∧
      ∀ k : Nibble, i.val ≤ k.val → under (p ++ [k]) m ≠ [] → j.val ≤ k.val := by
  obtain ⟨bm, b1, b2⟩ := bitmaps_canon (H := H) (m := m) (ver := ver) p
  obtain ⟨j, j1, j2, j3⟩ := least_bit (b := bm.1) i.val (by
    obtain ⟨j, h1, h2⟩ := h; exact ⟨j, h1, (b2 j).2 h2⟩)
  refine ⟨bm.1, j, ?_, b2, j1, (b2 j).1 j2, fun k k1 k2 => j3 k k1 ((b2 k).2 k2)⟩
  unfold VisitInfo.newNextChildToVisit
  rw [b1, ok_bind]
  have hj := j.isLt
  have hge : 2 ^ j.val ≤ bm.1.toNat := Nat.ge_two_pow_of_testBit j2
  have hle : 2 ^ i.val ≤ 2 ^ j.val := Nat.pow_le_pow_right (by decide) j1
  have hnot : ¬ bm.1.toNat < ((1 : BitVec 16) <<< i.val).toNat := by rw [toNat_one_shl]; omega
  simp only [hnot, if_false]
  rw [shiftLoop_ok j1 j2 j3 (by omega), ok_bind]

theorem next_done_internal (t : TreeAt H R.getNodeOption v m ver) (h2 : 2 ≤ m.length) :
    Iter.Yields R ⟨v, [], false⟩ [] := by
  refine .done ?_
  unfold Iter.next
  have : R.getNode (NodeKey.root v) = .ok (canonNode H m ver []) := by
    have := t.read (q := []) (.inl rfl)
    simpa [verAt, NodeKey.root] using this
  simp only [this]
  rw [canonNode_two (by simpa using h2)]
  rfl

theorem yields_done (stk : List VisitInfo) : Iter.Yields R ⟨v, stk, true⟩ [] := by
  refine .done ?_
  unfold Iter.next
  rfl

/-- Standing before a leaf (at the root: with an empty stack). -/
theorem yields_at_leaf (hm : NodupE m) (hs : SortedE m) (t : TreeAt H R.getNodeOption v m ver)
    {x : Entry → Value} (hx : ValsAt R v m ver x) (h : StackAt H v m ver p stk) {e : Entry}
    (g : under p m = [e]) : Iter.Yields R ⟨v, stk, false⟩ ((rest m p).map (fun e => (e.1, x e))) := by
  by_cases hp : p = []
  · subst hp
    have := h.stk_nil rfl
    subst this
    simp at g
    have hr : rest m [] = [e] := by simp [rest, pos, g]
    rw [hr]
    refine .item (it' := ⟨v, [], true⟩) ?_ (yields_done _)
    unfold Iter.next
    have : R.getNode (NodeKey.root v) = .ok (canonNode H m ver []) := by
      have := t.read (q := []) (.inl rfl)
      simpa [verAt, NodeKey.root] using this
    simp only [this]
    rw [canonNode_one (e := e) (by simpa using g)]
    simp [hx.root e g]
  · exact yields_stack hm hs t hx rfl h hp

theorem newLoop_spec (hm : NodupE m) (hs : SortedE m) (t : TreeAt H R.getNodeOption v m ver)
    {x : Entry → Value} (hx : ValsAt R v m ver x) (start : KeyHash) :
    ∀ {rem p stk}, p ++ rem = start.nibbles → StackAt H v m ver p stk → (p = [] ∨ pres m [] p) →
    ∃ it, Iter.newLoop R v start rem ⟨verAt v ver p, p⟩ stk = .ok it ∧
      it.Yields R ((rest m start.nibbles).map (fun e => (e.1, x e))) := by
  intro rem
  induction rem with
  | nil =>
    intro p stk hpr hst hpre
    unfold Iter.newLoop
    rw [t.read hpre, ok_bind]
    simp at hpr
    subst hpr
    have hl1 : (under start.nibbles m).length ≤ 1 := by
      apply Decidable.byContradiction
      intro hc
      have := under_length_lt_of_two hm (p := start.nibbles) (m := m) (by omega)
      simp at this
    rcases len_cases (under start.nibbles m) with g | ⟨e, g⟩ | g
    · rcases hpre with h | h
      · have := congrArg List.length h; simp at this
      · exact absurd g (pres_nil_iff.1 h).1
    · rw [canonNode_one g]
      simp only
      unfold Iter.newFinish
      rw [t.read hpre, ok_bind, canonNode_one g]
      simp only
      have he : e ∈ under start.nibbles m := by rw [g]; simp
      have hek : start.nibbles = e.1.nibbles := (mem_under.1 he).2.eq_of_length (by simp)
      have : ¬ e.1.val < start.val := by
        rw [← nibbles_lt, hek]; exact List.lt_irrefl _
      rw [if_neg this]
      exact ⟨_, rfl, yields_at_leaf hm hs t hx hst g⟩
    · omega
  | cons i rem ih =>
    intro p stk hpr hst hpre
    have hp : p.length < 64 := by
      have := congrArg List.length hpr
      simp at this; omega
    have hps : p <+: start.nibbles := ⟨_, hpr⟩
    have hpis : p ++ [i] <+: start.nibbles := ⟨rem, by rw [← hpr]; simp⟩
    unfold Iter.newLoop
    rw [t.read hpre, ok_bind]
    rcases len_cases (under p m) with g | ⟨e, g⟩ | g
    · have : p = [] := by
        rcases hpre with h | h
        · exact h
        · exact absurd g (pres_nil_iff.1 h).1
      subst this
      rw [canonNode_nil g]
      simp only
      unfold Iter.newFinish
      rw [t.read (.inl rfl), ok_bind, canonNode_nil g]
      refine ⟨_, rfl, ?_⟩
      simp at g
      subst g
      exact yields_done _
    · rw [canonNode_one g]
      simp only
      unfold Iter.newFinish
      rw [t.read hpre, ok_bind, canonNode_one g]
      simp only
      have hbelow : ∀ e' ∈ m, p <+: e'.1.nibbles → e' = e := by
        intro e' h1 h2
        have : e' ∈ under p m := mem_under.2 ⟨h1, h2⟩
        rw [g] at this; simpa using this
      by_cases hlt : e.1.val < start.val
      · rw [if_pos hlt]
        have hT : rest m start.nibbles = after m p := by
          apply rest_eq_after hps
          intro e' h1 h2
          rw [hbelow e' h1 h2, pos_gt_iff (by simp)]
          exact nibbles_lt.2 hlt
        obtain ⟨stk', s1, s2⟩ := cleanupStack_spec hm hst
        rw [s1, ok_bind]
        refine ⟨_, rfl, ?_⟩
        rw [hT]
        rcases s2 with ⟨rfl, h0⟩ | ⟨q', q1, q2, q3⟩
        · rw [h0]; exact yields_done _
        · rw [← q3]
          have hne : stk' ≠ [] := by rintro rfl; exact q1 q2.path_nil
          rw [List.isEmpty_eq_false_iff.2 hne]
          exact yields_stack hm hs t hx rfl q2 q1
      · rw [if_neg hlt]
        refine ⟨_, rfl, ?_⟩
        rw [rest_eq_rest hps]
        · exact yields_at_leaf hm hs t hx hst g
        · intro e' h1 h2
          rw [hbelow e' h1 h2, ne_eq, pos_gt_iff (by simp), nibbles_lt]
          exact hlt
    · rw [canonNode_two g]
      have h2m : 2 ≤ m.length := by
        have := length_under_le (List.nil_prefix (l := p)) m
        simp at this; omega
      simp only
      unfold Iter.newStep
      have hch : (canonInternal H m ver p).child i = canonChild H m ver (p ++ [i]) := rfl
      rw [hch]
      by_cases hi : under (p ++ [i]) m = []
      · rw [canonChild_nil hi]
        obtain ⟨bm, b1, b2⟩ := bitmaps_canon (H := H) (m := m) (ver := ver) p
        simp only [b1, ok_bind]
        obtain ⟨e, he⟩ := List.exists_mem_of_ne_nil (under p m) (by intro h; simp [h] at g)
        have hun := under_next hp (mem_under.1 he).1 (pos_eq_iff.2 (mem_under.1 he).2)
        obtain ⟨tp, t1, t2, t3⟩ := lz_spec ((b2 _).2 hun)
        have htp := tp.isLt
        have hT : rest m start.nibbles = after m (p ++ [i]) := by
          apply rest_eq_after hpis
          intro e' h1 h2
          have : e' ∈ under (p ++ [i]) m := mem_under.2 ⟨h1, h2⟩
          rw [hi] at this; simp at this
        rw [hT]
        have hnot : ¬ 15 < leadingZeros16 bm.1 := by omega
        simp only [hnot, if_false]
        by_cases hlt : i.val < 15 - leadingZeros16 bm.1
        · simp only [hlt, if_true]
          obtain ⟨b, j, n1, n2, n3, n4, n5⟩ := newNext_ok (H := H) (ver := ver) (m := m) (i := i)
            ⟨verAt v ver p, p⟩ p ⟨tp, by omega, (b2 tp).1 t2⟩
          simp only [n1, ok_bind]
          refine ⟨_, rfl, ?_⟩
          have hji : j ≠ i := by rintro rfl; exact n4 hi
          have hji' : j.val ≠ i.val := fun h => hji (Fin.ext h)
          rw [← after_advance hp (i := i) (j := j) (by omega) (fun k k1 k2 => n5 k (by omega) k2)]
          exact yields_stack hm hs t hx rfl (.snoc hst g n2 n4) (by simp)
        · simp only [hlt, if_false]
          obtain ⟨stk', s1, s2⟩ := cleanupStack_spec hm hst
          simp only [s1, ok_bind]
          refine ⟨_, rfl, ?_⟩
          rw [after_rightmost hp (fun j hj => by have := t3 j ((b2 j).2 hj); omega)]
          rcases s2 with ⟨rfl, h0⟩ | ⟨q', q1, q2, q3⟩
          · rw [h0]; exact next_done_internal t h2m
          · rw [← q3]; exact yields_stack hm hs t hx rfl q2 q1
      · obtain ⟨c, hc⟩ := Option.isSome_iff_exists.1 ((canonChild_isSome (H := H) (ver := ver)).2 hi)
        have hv := (canonChild_some hc).2.1
        rw [hc]
        obtain ⟨b, j, n1, n2, n3, n4, n5⟩ := newNext_ok (H := H) (ver := ver) (m := m) (i := i)
          ⟨verAt v ver p, p⟩ p ⟨i, Nat.le_refl _, hi⟩
        have hij : j = i := Fin.ext (Nat.le_antisymm (n5 i (Nat.le_refl _) hi) n3)
        subst hij
        simp only [n1, ok_bind]
        have h1 : verAt v ver (p ++ [j]) = ver (p ++ [j]) := if_neg (by simp)
        have hgen : NodeKey.genChild ⟨verAt v ver p, p⟩ c.version j = .ok ⟨verAt v ver (p ++ [j]), p ++ [j]⟩ := by
          unfold NodeKey.genChild
          rw [if_pos (by simpa [rootNibbleHeight] using hp), hv, h1]
        simp only [hgen, ok_bind]
        have hst' : StackAt H v m ver (p ++ [j]) _ := .snoc hst g n2 hi
        exact ih (by rw [← hpr]; simp) hst' (.inr (hst'.pres (by intro h; simp [h] at h2m)))

/-! ## By index -/

/-- The entries before the subtree at `q`. -/
def before (m : List Entry) (q : List Nibble) : List Entry := m.filter (fun e => pos q e.1.nibbles == .gt)

theorem rest_eq_drop (hs : SortedE m) (hq : q.length ≤ 64) : rest m q = m.drop (before m q).length := by
  unfold rest before
  have : (fun e : Entry => pos q e.1.nibbles == .gt) = fun e => !(pos q e.1.nibbles != .gt) := by
    funext e; simp [bne]
  rw [this]
  apply filter_eq_drop
  refine hs.imp ?_
  intro a b hab ha
  rw [bne_iff_ne] at ha ⊢
  intro hb
  refine List.lt_irrefl _ (List.lt_trans hab (pos_trans (q := q) (x := b.1.nibbles) (y := a.1.nibbles)
    (by simp) (by simpa using hq) ?_ ha ?_))
  · rw [hb]; simp
  · left; rw [hb]; simp

theorem before_child (hp : p.length < 64) (i : Nibble) :
    (before m (p ++ [i])).length =
      (before m p).length + ((under p m).filter (fun e => pos (p ++ [i]) e.1.nibbles == .gt)).length := by
  unfold before under ub
  rw [List.filter_filter]
  induction m with
  | nil => rfl
  | cons e m ih =>
    simp only [List.filter_cons]
    rcases hpos : pos p e.1.nibbles with _ | _ | _
    · have h1 : pos (p ++ [i]) e.1.nibbles = .lt := by rw [pos_child hp, hpos]; rfl
      simp [h1]
      exact ih
    · have hpre : (pathBits p).isPrefixOf (keyBits e.1) = true := by
        simpa [keyBits, pathBits_prefix] using pos_eq_iff.1 hpos
      rw [hpre]
      by_cases h1 : pos (p ++ [i]) e.1.nibbles = .gt
      · simp only [h1, beq_self_eq_true, Bool.and_self, if_true, List.length_cons]
        rw [ih]
        simp; omega
      · have : (pos (p ++ [i]) e.1.nibbles == Ordering.gt) = false := by simpa using h1
        simp only [this, Bool.false_and, Bool.false_eq_true, if_false]
        rw [ih]
        simp
    · have h1 : pos (p ++ [i]) e.1.nibbles = .gt := by rw [pos_child hp, hpos]; rfl
      have hpre : (pathBits p).isPrefixOf (keyBits e.1) = false := by
        cases hb : (pathBits p).isPrefixOf (keyBits e.1)
        · rfl
        · have : p <+: e.1.nibbles := by simpa [keyBits, pathBits_prefix] using hb
          rw [pos_eq_iff.2 this] at hpos; cases hpos
      rw [hpre]
      simp only [h1, beq_self_eq_true, if_true, List.length_cons, Bool.and_false]
      rw [ih]
      simp; omega

theorem skipLeaves_spec (idx : Nat) : ∀ (l : List (Nibble × Child)) (s : Nat), s ≤ idx →
    idx < s + (l.map (fun e => e.2.leafCount)).sum →
    ∃ pre e post, l = pre ++ e :: post ∧
      Iter.skipLeaves idx l s = .ok (e, s + (pre.map (fun e => e.2.leafCount)).sum) ∧
      s + (pre.map (fun e => e.2.leafCount)).sum ≤ idx ∧
      idx < s + (pre.map (fun e => e.2.leafCount)).sum + e.2.leafCount := by
  intro l
  induction l with
  | nil => intro s h1 h2; simp at h2; omega
  | cons a l ih =>
    intro s h1 h2
    simp only [List.map_cons, List.sum_cons] at h2
    unfold Iter.skipLeaves
    by_cases h : s + a.2.leafCount ≤ idx
    · obtain ⟨pre, e, post, e1, e2, e3, e4⟩ := ih (s + a.2.leafCount) h (by omega)
      refine ⟨a :: pre, e, post, by rw [e1]; rfl, ?_, ?_, ?_⟩
      · rw [if_pos h, e2]; simp [Nat.add_assoc]
      · simp only [List.map_cons, List.sum_cons]; omega
      · simp only [List.map_cons, List.sum_cons]; omega
    · rw [if_neg h]
      exact ⟨[], a, l, rfl, by simp, by simpa using h1, by simp; omega⟩

theorem length_flatMap_under (l : List (Nibble × Child))
    (h : ∀ e ∈ l, canonChild H m ver (p ++ [e.1]) = some e.2) :
    (l.flatMap (fun e => under (p ++ [e.1]) m)).length = (l.map (fun e => e.2.leafCount)).sum := by
  induction l with
  | nil => rfl
  | cons a l ih =>
    simp only [List.flatMap_cons, List.length_append, List.map_cons, List.sum_cons]
    rw [ih (fun e he => h e (by simp [he])), (canonChild_some (h a (by simp))).2.2.1]

theorem byIndexLoop_spec (hm : NodupE m) (hs : SortedE m) (t : TreeAt H R.getNodeOption v m ver)
    {x : Entry → Value} (hx : ValsAt R v m ver x) (idx : Nat) {f : Nat} :
    ∀ {p stk}, StackAt H v m ver p stk → (p = [] ∨ pres m [] p) → 65 ≤ p.length + f →
    (before m p).length ≤ idx → idx < (before m p).length + (under p m).length →
    ∃ it, Iter.byIndexLoop R v idx f ⟨verAt v ver p, p⟩ (canonNode H m ver p) (before m p).length stk = .ok it ∧
      it.Yields R ((m.drop idx).map (fun e => (e.1, x e))) := by
  induction f with
  | zero =>
    intro p stk hst hpre hf h1 h2
    have : under p m ≠ [] := by intro h; simp [h] at h2; omega
    have := path_length_le this
    omega
  | succ f ih =>
    intro p stk hst hpre hf h1 h2
    have hne : under p m ≠ [] := by intro h; simp [h] at h2; omega
    unfold Iter.byIndexLoop
    rcases len_cases (under p m) with g | ⟨e, g⟩ | g
    · exact absurd g hne
    · rw [canonNode_one g]
      simp only
      rw [g] at h2
      simp at h2
      have : (before m p).length = idx := by omega
      rw [if_pos this]
      refine ⟨_, rfl, ?_⟩
      rw [← this, ← rest_eq_drop hs (path_length_le hne)]
      exact yields_at_leaf hm hs t hx hst g
    · rw [canonNode_two g]
      have hp := under_length_lt_of_two hm g
      have h2m : 2 ≤ m.length := by
        have := length_under_le (List.nil_prefix (l := p)) m
        simp at this; omega
      simp only
      have hcs : CanonSlots H m ver p (canonInternal H m ver p).children := canonSlots_self
      have hit : ∀ e ∈ (canonInternal H m ver p).children.iter, canonChild H m ver (p ++ [e.1]) = some e.2 := by
        intro e he
        rw [← hcs]; exact mem_iter.1 he
      have hperm := under_perm hcs hp
      have hsum := length_flatMap_under (H := H) (ver := ver) _ hit
      rw [← hperm.length_eq] at hsum
      obtain ⟨pre, ⟨i, c⟩, post, e1, e2, e3, e4⟩ := skipLeaves_spec idx
        (canonInternal H m ver p).children.iter (before m p).length h1 (by rw [← hsum]; exact h2)
      simp only [e2, ok_bind]
      have hc := hit (i, c) (by rw [e1]; simp)
      have hv := (canonChild_some hc).2.1
      have hlc := (canonChild_some hc).2.2.1
      have hi := (canonChild_some hc).2.2.2.2
      simp only at hc hv hi hlc
      have h1v : verAt v ver (p ++ [i]) = ver (p ++ [i]) := if_neg (by simp)
      have hgen : NodeKey.genChild ⟨verAt v ver p, p⟩ c.version i = .ok ⟨verAt v ver (p ++ [i]), p ++ [i]⟩ := by
        unfold NodeKey.genChild
        rw [if_pos (by simpa [rootNibbleHeight] using hp), hv, h1v]
      simp only [hgen, ok_bind]
      obtain ⟨b, j, n1, n2, n3, n4, n5⟩ := newNext_ok (H := H) (ver := ver) (m := m) (i := i)
        ⟨verAt v ver p, p⟩ p ⟨i, Nat.le_refl _, hi⟩
      have hij : j = i := Fin.ext (Nat.le_antisymm (n5 i (Nat.le_refl _) hi) n3)
      subst hij
      simp only [n1, ok_bind]
      have hst' : StackAt H v m ver (p ++ [j]) _ := .snoc hst g n2 hi
      have hpre' := hst'.pres (by intro h; simp [h] at h2m)
      rw [t.read (.inr hpre')]
      simp only [ok_bind]
      have hb : (before m p).length + (pre.map (fun e => e.2.leafCount)).sum = (before m (p ++ [j])).length := by
        rw [before_child hp]
        congr 1
        have hf := (hperm.filter (fun e => pos (p ++ [j]) e.1.nibbles == .gt)).length_eq
        rw [hf, e1, List.flatMap_append, List.flatMap_cons, List.filter_append, List.filter_append]
        have hpw := iter_pairwise (canonInternal H m ver p).children
        rw [e1, List.pairwise_append] at hpw
        have hcmp : ∀ (k : Nibble) (a : Entry), a ∈ under (p ++ [k]) m →
            pos (p ++ [j]) a.1.nibbles = compare j.val k.val := by
          intro k a ha
          have h0 := pos_eq_iff.2 (mem_under.1 ha).2
          rw [pos_child hp] at h0 ⊢
          rcases hpp : pos p a.1.nibbles with _ | _ | _
          · rw [hpp] at h0; simp at h0
          · rw [hpp] at h0
            have h0' : compare k.val (a.1.nibbles[p.length]'(by simpa using hp)).val = .eq := h0
            rw [← Nat.compare_eq_eq.1 h0']; rfl
          · rw [hpp] at h0; simp at h0
        have hA : (pre.flatMap (fun e => under (p ++ [e.1]) m)).filter
            (fun e => pos (p ++ [j]) e.1.nibbles == .gt) = pre.flatMap (fun e => under (p ++ [e.1]) m) := by
          rw [List.filter_eq_self]
          intro a ha
          obtain ⟨k, hk, ha⟩ := List.mem_flatMap.1 ha
          rw [hcmp _ _ ha, beq_iff_eq, Nat.compare_eq_gt]
          have := hpw.2.2 k hk (j, c) (List.mem_cons_self ..)
          exact this
        have hB : (under (p ++ [j]) m).filter (fun e => pos (p ++ [j]) e.1.nibbles == .gt) = [] := by
          rw [List.filter_eq_nil_iff]
          intro a ha
          rw [hcmp _ _ ha, beq_iff_eq, Nat.compare_eq_gt]
          omega
        have hC : (post.flatMap (fun e => under (p ++ [e.1]) m)).filter
            (fun e => pos (p ++ [j]) e.1.nibbles == .gt) = [] := by
          rw [List.filter_eq_nil_iff]
          intro a ha
          obtain ⟨k, hk, ha⟩ := List.mem_flatMap.1 ha
          rw [hcmp _ _ ha, beq_iff_eq, Nat.compare_eq_gt]
          have := List.rel_of_pairwise_cons hpw.2.1 hk
          simp only [Fin.lt_def] at this
          omega
        rw [hA, hB, hC, List.append_nil, List.append_nil]
        rw [length_flatMap_under (H := H) (ver := ver) pre (fun e he => hit e (by rw [e1]; simp [he]))]
      rw [hb]
      refine ih hst' (.inr hpre') ?_ (by omega) (by rw [← hlc]; simp only at e4; omega)
      simp only [List.length_append, List.length_singleton]; omega

end
end Jmt
