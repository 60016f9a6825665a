import Verif.Model.NodeType
/-!
# Bitmaps of an internal node, read as lists of children
-/
namespace Jmt

/-- Children with index in `[start, start + w)`, in index order. -/
def kids (cs : Children) (start w : Nat) : List (Nibble × Child) :=
  cs.iter.filter (fun e => decide (start ≤ e.1.val) && decide (e.1.val < start + w))

theorem mem_iter {cs : Children} {e : Nibble × Child} : e ∈ cs.iter ↔ cs.slots e.1 = some e.2 := by
  unfold Children.iter
  rw [List.mem_filterMap]
  constructor
  · rintro ⟨i, -, h⟩
    cases hs : cs.slots i with
    | none => simp [hs] at h
    | some c => simp [hs] at h; subst h; exact hs
  · intro h
    exact ⟨e.1, List.mem_finRange _, by simp [h]⟩

theorem iter_pairwise (cs : Children) : cs.iter.Pairwise (fun a b => a.1 < b.1) := by
  unfold Children.iter
  refine List.Pairwise.filterMap (R := fun a b => a < b) _ ?_ (List.pairwise_lt_finRange 16)
  intro a a' h b hb b' hb'
  cases ha : cs.slots a <;> simp [ha] at hb
  cases ha' : cs.slots a' <;> simp [ha'] at hb'
  subst hb; subst hb'; exact h

theorem mem_kids {cs : Children} {s w : Nat} {e : Nibble × Child} :
    e ∈ kids cs s w ↔ cs.slots e.1 = some e.2 ∧ s ≤ e.1.val ∧ e.1.val < s + w := by
  simp [kids, List.mem_filter, mem_iter]

theorem kids_full (cs : Children) : kids cs 0 16 = cs.iter := by
  unfold kids
  rw [List.filter_eq_self]
  intro e _
  have := e.1.isLt
  simp

theorem filter_split_sorted (l : List (Nibble × Child)) (h : l.Pairwise (fun a b => a.1 < b.1))
    (a b c : Nat) (hab : a ≤ b) (hbc : b ≤ c) :
    l.filter (fun e => decide (a ≤ e.1.val) && decide (e.1.val < c))
      = l.filter (fun e => decide (a ≤ e.1.val) && decide (e.1.val < b))
        ++ l.filter (fun e => decide (b ≤ e.1.val) && decide (e.1.val < c)) := by
  induction l with
  | nil => rfl
  | cons x l ih =>
    rw [List.pairwise_cons] at h
    have ih := ih h.2
    by_cases hx : x.1.val < b
    · have h1 : ¬ (b ≤ x.1.val) := by omega
      have h2 : x.1.val < c := by omega
      by_cases h3 : a ≤ x.1.val <;> simp [List.filter_cons, hx, h1, h2, h3, ih]
    · have h1 : b ≤ x.1.val := by omega
      have h3 : a ≤ x.1.val := by omega
      have he : (x :: l).filter (fun e => decide (a ≤ e.1.val) && decide (e.1.val < b)) = [] := by
        rw [List.filter_eq_nil_iff]
        intro y hy
        rcases List.mem_cons.1 hy with rfl | hy
        · simp [hx]
        · have := h.1 y hy
          have : x.1.val < y.1.val := this
          simp; omega
      rw [he, List.nil_append]
      apply List.filter_congr
      intro y hy
      rcases List.mem_cons.1 hy with rfl | hy
      · simp [h1, h3]
      · have := h.1 y hy
        have h5 : x.1.val < y.1.val := this
        have h6 : b ≤ y.1.val := by omega
        have h7 : a ≤ y.1.val := by omega
        simp [h6, h7]

theorem kids_split (cs : Children) (s w : Nat) :
    kids cs s (w + w) = kids cs s w ++ kids cs (s + w) w := by
  unfold kids
  have := filter_split_sorted cs.iter (iter_pairwise cs) s (s + w) (s + (w + w)) (by omega) (by omega)
  rw [this]
  simp [Nat.add_assoc]

theorem kids_pairwise (cs : Children) (s w) : (kids cs s w).Pairwise (fun a b => a.1 < b.1) :=
  (iter_pairwise cs).filter _

theorem kids_one (cs : Children) (i : Nibble) :
    kids cs i.val 1 = match cs.slots i with | none => [] | some c => [(i, c)] := by
  have hmem : ∀ e, e ∈ kids cs i.val 1 ↔ e.1 = i ∧ cs.slots i = some e.2 := by
    intro e
    rw [mem_kids]
    constructor
    · rintro ⟨h1, h2, h3⟩
      have : e.1 = i := Fin.ext (by omega)
      subst this; exact ⟨rfl, h1⟩
    · rintro ⟨rfl, h⟩
      exact ⟨h, Nat.le_refl _, Nat.lt_succ_self _⟩
  have hp := kids_pairwise cs i.val 1
  cases hs : cs.slots i with
  | none =>
    rw [List.eq_nil_iff_forall_not_mem]
    intro e he
    have := (hmem e).1 he
    simp [hs] at this
  | some c =>
    match hk : kids cs i.val 1 with
    | [] =>
      have : (i, c) ∈ kids cs i.val 1 := (hmem _).2 ⟨rfl, hs⟩
      simp [hk] at this
    | [e] =>
      have : e ∈ kids cs i.val 1 := by simp [hk]
      have := (hmem _).1 this
      obtain ⟨e1, e2⟩ := e
      simp [hs] at this
      obtain ⟨rfl, rfl⟩ := this
      rfl
    | e :: e' :: t =>
      have h1 := (hmem e).1 (by simp [hk])
      have h2 := (hmem e').1 (by simp [hk])
      rw [hk, List.pairwise_cons] at hp
      have := hp.1 e' (by simp)
      rw [h1.1, h2.1] at this
      exact absurd this (Nat.lt_irrefl _)

/-- Is the child at slot `i` a leaf? -/
def Children.leafAt (cs : Children) (i : Nibble) : Bool :=
  match cs.slots i with
  | some c => c.isLeaf
  | none => false

/-- `bm` are the existence and leaf bitmaps of the children with index in `[lo, hi)`. -/
def BMFor (cs : Children) (lo hi : Nat) (bm : BitVec 16 × BitVec 16) : Prop :=
  ∀ i : Nibble,
    bm.1.getLsbD i.val = (decide (lo ≤ i.val) && decide (i.val < hi) && (cs.slots i).isSome) ∧
    bm.2.getLsbD i.val = (decide (lo ≤ i.val) && decide (i.val < hi) && cs.leafAt i)

theorem getLsbD_one_shl : ∀ i j : Nibble,
    ((1 : BitVec 16) <<< i.val).getLsbD j.val = decide (j = i) := by decide

theorem bm_foldl (es : List (Nibble × Child)) (a : BitVec 16 × BitVec 16) (i : Nibble) :
    let r := es.foldl
      (fun (bm : BitVec 16 × BitVec 16) (e : Nibble × Child) =>
        (bm.1 ||| ((1 : BitVec 16) <<< e.1.val),
         if e.2.isLeaf then bm.2 ||| ((1 : BitVec 16) <<< e.1.val) else bm.2)) a
    r.1.getLsbD i.val = (a.1.getLsbD i.val || es.any (fun e => decide (e.1 = i))) ∧
    r.2.getLsbD i.val = (a.2.getLsbD i.val || es.any (fun e => decide (e.1 = i) && e.2.isLeaf)) := by
  induction es generalizing a with
  | nil => simp
  | cons e es ih =>
    simp only [List.foldl_cons, List.any_cons]
    have := ih (a.1 ||| ((1 : BitVec 16) <<< e.1.val),
         if e.2.isLeaf then a.2 ||| ((1 : BitVec 16) <<< e.1.val) else a.2)
    simp only at this
    rw [this.1, this.2]
    constructor
    · rw [BitVec.getLsbD_or, getLsbD_one_shl]
      simp [eq_comm, Bool.or_assoc]
    · cases h : e.2.isLeaf
      · simp
      · simp only [↓reduceIte]
        rw [BitVec.getLsbD_or, getLsbD_one_shl]
        simp [eq_comm, Bool.or_assoc]

theorem generateBitmaps_ok (n : InternalNode) :
    ∃ bm, n.generateBitmaps = .ok bm ∧ BMFor n.children 0 16 bm := by
  have hf := bm_foldl n.children.iter (0, 0)
  have hz : ∀ i : Nat, (0 : BitVec 16).getLsbD i = false := fun i => BitVec.getLsbD_zero
  have hb : BMFor n.children 0 16 (n.children.iter.foldl
      (fun (bm : BitVec 16 × BitVec 16) (e : Nibble × Child) =>
        (bm.1 ||| ((1 : BitVec 16) <<< e.1.val),
         if e.2.isLeaf then bm.2 ||| ((1 : BitVec 16) <<< e.1.val) else bm.2)) (0, 0)) := by
    intro i
    obtain ⟨h1, h2⟩ := hf i
    rw [h1, h2]
    constructor
    · rw [Bool.eq_iff_iff]
      simp only [hz, Bool.false_or, List.any_eq_true,
        decide_eq_true_eq, Nat.zero_le, decide_true, i.isLt, Bool.true_and]
      constructor
      · rintro ⟨e, he, rfl⟩; simp [mem_iter.1 he]
      · intro h
        obtain ⟨c, hc⟩ := Option.isSome_iff_exists.1 h
        exact ⟨(i, c), mem_iter.2 hc, rfl⟩
    · rw [Bool.eq_iff_iff]
      simp only [hz, Bool.false_or, List.any_eq_true,
        decide_eq_true_eq, Nat.zero_le, decide_true, i.isLt, Bool.true_and, Bool.and_eq_true,
        Children.leafAt]
      constructor
      · rintro ⟨e, he, rfl, hl⟩; simp [mem_iter.1 he, hl]
      · intro h
        cases hc : n.children.slots i with
        | none => simp [hc] at h
        | some c => exact ⟨(i, c), mem_iter.2 hc, rfl, by simpa [hc] using h⟩
  refine ⟨_, ?_, hb⟩
  unfold InternalNode.generateBitmaps
  simp only
  rw [if_pos]
  apply BitVec.eq_of_getLsbD_eq
  intro i hi
  have := hb ⟨i, hi⟩
  rw [BitVec.getLsbD_or, this.1, this.2]
  unfold Children.leafAt
  cases n.children.slots ⟨i, hi⟩ <;> simp [hi]

theorem mask_bits : ∀ h : Fin 5, ∀ s : Fin 16, s.val % 2 ^ h.val = 0 → ∀ i : Fin 16,
    ((((((1 : BitVec 32) <<< (2 ^ h.val)) - 1) <<< s.val).truncate 16 : BitVec 16)).getLsbD i.val
      = (decide (s.val ≤ i.val) && decide (i.val < s.val + 2 ^ h.val)) := by decide +kernel

theorem countOnes8_pow : ∀ h : Fin 5, countOnes8 (2 ^ h.val) = 1 := by decide

theorem aligned_le : ∀ h : Fin 5, ∀ s : Fin 16, s.val % 2 ^ h.val = 0 → s.val + 2 ^ h.val ≤ 16 := by
  decide

theorem pow_le_16 : ∀ h : Fin 5, 2 ^ h.val ≤ 16 := by decide

/-- A valid range: `width = 2^h`, aligned, inside `[0,16)`. -/
structure Rng (h s : Nat) : Prop where
  hh : h ≤ 4
  hs : s < 16
  al : s % 2 ^ h = 0

theorem Rng.le {h s : Nat} (r : Rng h s) : s + 2 ^ h ≤ 16 :=
  aligned_le ⟨h, by have := r.hh; omega⟩ ⟨s, r.hs⟩ r.al

theorem rangeBitmaps_ok {cs : Children} {lo hi : Nat} {bm : BitVec 16 × BitVec 16}
    (hb : BMFor cs lo hi bm) {h s : Nat} (r : Rng h s) (hlo : lo ≤ s) (hhi : s + 2 ^ h ≤ hi) :
    ∃ bm', rangeBitmaps s (2 ^ h) bm = .ok bm' ∧ BMFor cs s (s + 2 ^ h) bm' := by
  have h5 : h < 5 := by have := r.hh; omega
  have hmask := mask_bits ⟨h, h5⟩ ⟨s, r.hs⟩ r.al
  simp only at hmask
  refine ⟨(bm.1 &&& (((((1 : BitVec 32) <<< (2 ^ h)) - 1) <<< s).truncate 16 : BitVec 16),
    bm.2 &&& (((((1 : BitVec 32) <<< (2 ^ h)) - 1) <<< s).truncate 16 : BitVec 16)), ?_, ?_⟩
  · unfold rangeBitmaps
    rw [if_neg, if_neg]
    · exact fun hc => hc ⟨pow_le_16 ⟨h, h5⟩, r.le⟩
    · exact fun hc => hc ⟨r.hs, countOnes8_pow ⟨h, h5⟩, r.al⟩
  · intro i
    obtain ⟨h1, h2⟩ := hb i
    simp only [BitVec.getLsbD_and]
    rw [hmask i, h1, h2]
    by_cases a1 : s ≤ i.val <;> by_cases a2 : i.val < s + 2 ^ h <;> simp [a1, a2] <;> omega

section views
variable {cs : Children} {s w : Nat} {r : BitVec 16 × BitVec 16}

theorem filter_finRange_kids (hb : BMFor cs s (s + w) r) :
    kids cs s w = (List.finRange 16).filterMap
      (fun i => if r.1.getLsbD i.val then (cs.slots i).map (fun c => (i, c)) else none) := by
  unfold kids Children.iter
  rw [List.filter_filterMap]
  congr 1
  funext i
  have h1 := (hb i).1
  cases hc : cs.slots i with
  | none => simp
  | some c =>
    simp only [Option.map_some]
    rw [h1, hc]
    simp [Option.filter]

theorem kids_isSome (hb : BMFor cs s (s + w) r) (i : Nibble) :
    (if r.1.getLsbD i.val then (cs.slots i).map (fun c => (i, c)) else none).isSome
      = r.1.getLsbD i.val := by
  have h1 := (hb i).1
  by_cases h : r.1.getLsbD i.val = true
  · rw [h] at h1
    have : (cs.slots i).isSome := by
      have := h1.symm
      simp only [Bool.and_eq_true] at this
      exact this.2
    simp only [h, ↓reduceIte, Option.isSome_map, this]
  · rw [if_neg h]; simpa using h

theorem countOnes_kids (hb : BMFor cs s (s + w) r) : countOnes16 r.1 = (kids cs s w).length := by
  rw [filter_finRange_kids hb, List.length_filterMap_eq_countP]
  unfold countOnes16
  apply List.countP_congr
  intro i _
  rw [kids_isSome hb]

theorem zero_iff_kids (hb : BMFor cs s (s + w) r) : r.1 = 0#16 ↔ kids cs s w = [] := by
  rw [filter_finRange_kids hb, List.filterMap_eq_nil_iff]
  constructor
  · intro h a _; rw [h]; simp
  · intro h
    apply BitVec.eq_of_getLsbD_eq
    intro i hi
    have := h ⟨i, hi⟩ (List.mem_finRange _)
    have h2 := kids_isSome hb ⟨i, hi⟩
    rw [this] at h2
    rw [BitVec.getLsbD_zero]
    exact h2.symm

theorem leaf_ne_zero_iff (hb : BMFor cs s (s + w) r) :
    r.2 ≠ 0#16 ↔ ∃ e ∈ kids cs s w, e.2.isLeaf = true := by
  constructor
  · intro h
    have : ∃ i : Fin 16, r.2.getLsbD i.val = true := by
      apply Classical.byContradiction
      intro hc
      apply h
      apply BitVec.eq_of_getLsbD_eq
      intro i hi
      have := fun h => hc ⟨⟨i, hi⟩, h⟩
      simpa using this
    obtain ⟨i, hi⟩ := this
    rw [(hb i).2] at hi
    simp only [Bool.and_eq_true, decide_eq_true_eq] at hi
    have hl := hi.2
    unfold Children.leafAt at hl
    cases hc : cs.slots i with
    | none => simp [hc] at hl
    | some c => exact ⟨(i, c), mem_kids.2 ⟨hc, hi.1⟩, by simpa [hc] using hl⟩
  · rintro ⟨e, he, hl⟩ h0
    have he := mem_kids.1 he
    have h2 := (hb e.1).2
    rw [h0] at h2
    simp [Children.leafAt, he, hl] at h2

theorem findSome_find {α β : Type} (f : α → Option β) (l : List α) {e : β} {t : List β}
    (h : l.filterMap f = e :: t) : ∃ a, l.find? (fun a => (f a).isSome) = some a ∧ f a = some e := by
  induction l with
  | nil => simp at h
  | cons a l ih =>
    cases hfa : f a with
    | none =>
      rw [List.filterMap_cons_none hfa] at h
      obtain ⟨a', h1, h2⟩ := ih h
      exact ⟨a', by simp [List.find?_cons, hfa, h1], h2⟩
    | some b =>
      rw [List.filterMap_cons_some hfa] at h
      injection h with h1 h2
      subst h1
      exact ⟨a, by simp [List.find?_cons, hfa], hfa⟩

theorem tz_kids {n : InternalNode} (hn : n.children = cs) (hb : BMFor cs s (s + w) r)
    {e : Nibble × Child} {t}
    (hk : kids cs s w = e :: t) : n.childAtIdx (trailingZeros16 r.1) = .ok e := by
  rw [filter_finRange_kids hb] at hk
  obtain ⟨i, h1, h2⟩ := findSome_find _ _ hk
  have h3 : (fun a : Fin 16 => (if r.1.getLsbD a.val then (cs.slots a).map (fun c => (a, c)) else none).isSome)
      = fun a => r.1.getLsbD a.val := by funext a; exact kids_isSome hb a
  rw [h3] at h1
  have htz : trailingZeros16 r.1 = i.val := by unfold trailingZeros16; rw [h1]
  rw [htz]
  unfold InternalNode.childAtIdx Nibble.ofNat?
  have : r.1.getLsbD i.val = true := by
    have := List.find?_some h1; simpa using this
  rw [this] at h2
  simp only [↓reduceIte] at h2
  cases hc : cs.slots i with
  | none => simp [hc] at h2
  | some c =>
    simp [hc] at h2
    subst h2
    simp [InternalNode.child, hn, hc]

theorem hasOnlyChild_kids (hb : BMFor cs s (s + w) r) :
    hasOnlyChild w r.1 r.2 = true ↔
      w = 1 ∨ ∃ e, kids cs s w = [e] ∧ e.2.isLeaf = true := by
  unfold hasOnlyChild
  simp only [Bool.or_eq_true, Bool.and_eq_true, beq_iff_eq, bne_iff_ne, countOnes_kids hb]
  rw [leaf_ne_zero_iff hb]
  constructor
  · rintro (h | ⟨h1, e, he, hl⟩)
    · exact .inl h
    · right
      obtain ⟨e', he'⟩ := List.length_eq_one_iff.1 h1
      rw [he'] at he
      simp at he; subst he
      exact ⟨e, he', hl⟩
  · rintro (h | ⟨e, h, hl⟩)
    · exact .inl h
    · right; rw [h]; exact ⟨rfl, e, by simp, hl⟩

end views

/-- The four-level hashing rule of an internal node (comment at src/node_type.rs:327-372), stated
on the children: no child below - placeholder; one child and it is a leaf - that leaf's hash; otherwise
hash of the two halves. -/
def ruleHash (H : Hasher) (cs : Children) : (h s : Nat) → Digest
  | 0, s => match kids cs s 1 with
    | e :: _ => e.2.hash
    | [] => placeholder
  | h + 1, s => match kids cs s (2 ^ (h + 1)) with
    | [] => placeholder
    | [e] => if e.2.isLeaf then e.2.hash
        else H.internalHash (ruleHash H cs h s) (ruleHash H cs h (s + 2 ^ h))
    | _ => H.internalHash (ruleHash H cs h s) (ruleHash H cs h (s + 2 ^ h))

theorem rng_half : ∀ h : Fin 4, ∀ s : Fin 16, s.val % 2 ^ (h.val + 1) = 0 →
    s.val % 2 ^ h.val = 0 ∧ s.val + 2 ^ h.val < 16 ∧ (s.val + 2 ^ h.val) % 2 ^ h.val = 0 := by decide

theorem Rng.left {h s : Nat} (r : Rng (h + 1) s) : Rng h s :=
  ⟨by have := r.hh; omega, r.hs, (rng_half ⟨h, by have := r.hh; omega⟩ ⟨s, r.hs⟩ r.al).1⟩

theorem Rng.right {h s : Nat} (r : Rng (h + 1) s) : Rng h (s + 2 ^ h) :=
  have := rng_half ⟨h, by have := r.hh; omega⟩ ⟨s, r.hs⟩ r.al
  ⟨by have := r.hh; omega, this.2.1, this.2.2⟩

theorem merkleHash_eq (H : Hasher) (n : InternalNode) {h s : Nat} (r : Rng h s) {lo hi : Nat}
    {bm : BitVec 16 × BitVec 16} (hb : BMFor n.children lo hi bm) (hlo : lo ≤ s)
    (hhi : s + 2 ^ h ≤ hi) : n.merkleHash H h s bm = .ok (ruleHash H n.children h s) := by
  induction h generalizing s lo hi bm with
  | zero =>
    obtain ⟨bm', h1, h2⟩ := rangeBitmaps_ok hb r hlo hhi
    unfold InternalNode.merkleHash ruleHash
    simp only [h1, bind, Except.bind]
    simp only [Nat.pow_zero] at h2 ⊢
    match hk : kids n.children s 1 with
    | [] => simp [(zero_iff_kids h2).2 hk]
    | e :: t =>
      have hne : ¬ bm'.1 = 0#16 := by rw [zero_iff_kids h2, hk]; simp
      have hoc : hasOnlyChild 1 bm'.1 bm'.2 = true := (hasOnlyChild_kids h2).2 (.inl rfl)
      simp [hne, hoc, tz_kids rfl h2 hk]
  | succ h ih =>
    obtain ⟨bm', h1, h2⟩ := rangeBitmaps_ok hb r hlo hhi
    unfold InternalNode.merkleHash ruleHash
    simp only [h1, bind, Except.bind]
    have hl := ih r.left h2 (Nat.le_refl _) (by rw [Nat.pow_succ]; omega)
    have hr := ih r.right h2 (Nat.le_add_right _ _) (by rw [Nat.pow_succ]; omega)
    have hw : (2 : Nat) ^ (h + 1) ≠ 1 := by
      rw [Nat.pow_succ]; have := Nat.one_le_two_pow (n := h); omega
    match hk : kids n.children s (2 ^ (h + 1)) with
    | [] => simp [(zero_iff_kids h2).2 hk]
    | [e] =>
      have hne : ¬ bm'.1 = 0#16 := by rw [zero_iff_kids h2, hk]; simp
      by_cases hlf : e.2.isLeaf = true
      · have hoc : hasOnlyChild (2 ^ (h + 1)) bm'.1 bm'.2 = true :=
          (hasOnlyChild_kids h2).2 (.inr ⟨e, hk, hlf⟩)
        simp [hne, hoc, tz_kids rfl h2 hk, hlf]
      · have hoc : hasOnlyChild (2 ^ (h + 1)) bm'.1 bm'.2 = false := by
          rw [Bool.eq_false_iff]
          intro hc
          rcases (hasOnlyChild_kids h2).1 hc with h' | ⟨e', he', hl'⟩
          · exact hw h'
          · rw [hk] at he'; simp at he'; subst he'; exact hlf hl'
        simp [hne, hoc, hlf, hl, hr]
    | e :: e' :: t =>
      have hne : ¬ bm'.1 = 0#16 := by rw [zero_iff_kids h2, hk]; simp
      have hoc : hasOnlyChild (2 ^ (h + 1)) bm'.1 bm'.2 = false := by
        rw [Bool.eq_false_iff]
        intro hc
        rcases (hasOnlyChild_kids h2).1 hc with h' | ⟨e', he', hl'⟩
        · exact hw h'
        · rw [hk] at he'; simp at he'
      simp [hne, hoc, hl, hr]

theorem rng_4_0 : Rng 4 0 := ⟨by decide, by decide, by decide⟩
theorem rng_3_0 : Rng 3 0 := ⟨by decide, by decide, by decide⟩
theorem rng_3_8 : Rng 3 8 := ⟨by decide, by decide, by decide⟩

/-- Hashing an internal node never fails and follows the four-level rule. -/
theorem internal_hash_eq (H : Hasher) (n : InternalNode) :
    n.hash H = .ok (ruleHash H n.children 4 0) := by
  obtain ⟨bm, h1, h2⟩ := generateBitmaps_ok n
  unfold InternalNode.hash
  simp only [h1, bind, Except.bind]
  exact merkleHash_eq H n rng_4_0 h2 (Nat.le_refl _) (Nat.le_refl _)

theorem toSM_eq (H : Hasher) (n : InternalNode) :
    n.toSM H = .ok (.internal (ruleHash H n.children 3 0) (ruleHash H n.children 3 8)) := by
  obtain ⟨bm, h1, h2⟩ := generateBitmaps_ok n
  unfold InternalNode.toSM
  simp only [h1, bind, Except.bind]
  rw [merkleHash_eq H n rng_3_0 h2 (by decide) (by decide),
    merkleHash_eq H n rng_3_8 h2 (by decide) (by decide)]

end Jmt
