import Verif.Proofs.Canon
/-!
# Siblings built by an internal node are the canonical siblings
-/
namespace Jmt
open Spec (Entry)

/-- The sibling node standing for the canonical subtree below the bit prefix `b`. -/
def sibNode (H : Hasher) (m : List Entry) (b : List Bool) : SMNode :=
  match ub b m with
  | [] => .null
  | [e] => .leaf e.1 e.2
  | _ => .internal (sh H m (b ++ [false])) (sh H m (b ++ [true]))

/-- Walk down from prefix `b` along the bits `xs` while at least two entries lie below; collect the
siblings (top to bottom) and return the prefix where the walk stops. -/
def walk (H : Hasher) (m : List Entry) : (b xs : List Bool) → List SMNode × List Bool
  | b, [] => ([], b)
  | b, x :: xs =>
    if (ub b m).length ≤ 1 then ([], b)
    else (sibNode H m (b ++ [!x]) :: (walk H m (b ++ [x]) xs).1, (walk H m (b ++ [x]) xs).2)

/-- The canonical proof for key `k`. -/
def specProof (H : Hasher) (m : List Entry) (k : KeyHash) : SMProof :=
  ⟨(ub (walk H m [] (keyBits k)).2 m).head?, (walk H m [] (keyBits k)).1.reverse⟩

section
variable {H : Hasher} {m : List Entry} {ver : List Nibble → Version} {p : List Nibble}

theorem sibNode_nil {b} (h : ub b m = []) : sibNode H m b = .null := by simp [sibNode, h]
theorem sibNode_one {b e} (h : ub b m = [e]) : sibNode H m b = .leaf e.1 e.2 := by simp [sibNode, h]
theorem sibNode_two {b} (h : 2 ≤ (ub b m).length) :
    sibNode H m b = .internal (sh H m (b ++ [false])) (sh H m (b ++ [true])) := by
  match hu : ub b m with
  | [] => simp [hu] at h
  | [e] => simp [hu] at h
  | e :: e' :: t => simp [sibNode, hu]

theorem sibNode_hash (hm : NodupE m) (b : List Bool) : (sibNode H m b).hash H = sh H m b := by
  rcases len_cases (ub b m) with h | ⟨e, h⟩ | h
  · rw [sibNode_nil h, sh_zero H h]; rfl
  · rw [sibNode_one h, sh_one H h]; rfl
  · rw [sibNode_two h, sh_two H (length_lt_of_two hm h) h]; rfl

theorem walk_stop {b : List Bool} (h : (ub b m).length ≤ 1) (xs) : walk H m b xs = ([], b) := by
  cases xs with
  | nil => rfl
  | cons x xs => simp [walk, h]

theorem walk_step {b : List Bool} (h : 2 ≤ (ub b m).length) (x xs) :
    walk H m b (x :: xs)
      = (sibNode H m (b ++ [!x]) :: (walk H m (b ++ [x]) xs).1, (walk H m (b ++ [x]) xs).2) := by
  have : ¬ (ub b m).length ≤ 1 := by omega
  simp [walk, this]

theorem walk_append (b xs ys : List Bool) :
    walk H m b (xs ++ ys)
      = ((walk H m b xs).1 ++ (walk H m (walk H m b xs).2 ys).1,
         (walk H m (walk H m b xs).2 ys).2) := by
  induction xs generalizing b with
  | nil => simp [walk]
  | cons x xs ih =>
    by_cases h : (ub b m).length ≤ 1
    · simp [walk_stop h]
    · have h2 : 2 ≤ (ub b m).length := by omega
      rw [List.cons_append, walk_step h2, walk_step h2, ih]
      simp

/-- Where a walk ends: either it stopped early at a prefix with at most one entry, or it consumed all. -/
theorem walk_end (b xs : List Bool) :
    (ub (walk H m b xs).2 m).length ≤ 1 ∨ (walk H m b xs).2 = b ++ xs := by
  induction xs generalizing b with
  | nil => right; simp [walk]
  | cons x xs ih =>
    by_cases h : (ub b m).length ≤ 1
    · left; rw [walk_stop h]; exact h
    · rw [walk_step (by omega)]
      rcases ih (b ++ [x]) with h' | h'
      · exact .inl h'
      · right; rw [h']; simp

/-- Readers that know the children of `p`. -/
def KnowsKids (H : Hasher) (m : List Entry) (ver : List Nibble → Version) (p : List Nibble)
    (getNode : NodeKey → Except Err Node) : Prop :=
  ∀ i, under (p ++ [i]) m ≠ [] →
    getNode ⟨ver (p ++ [i]), p ++ [i]⟩ = .ok (canonNode H m ver (p ++ [i]))

theorem genChild_ok {v w : Version} (hp : p.length < 64) (i : Nibble) :
    NodeKey.genChild ⟨v, p⟩ w i = .ok ⟨w, p ++ [i]⟩ := by
  simp [NodeKey.genChild, rootNibbleHeight, hp]

theorem buildSibling_canon (hm : NodupE m) {n : InternalNode} (hc : CanonSlots H m ver p n.children)
    (hp : p.length < 64)
    {getNode} (hk : KnowsKids H m ver p getNode) {h s : Nat} (r : Rng h s) {lo hi} {bm}
    (hbm : BMFor n.children lo hi bm) (hlo : lo ≤ s) (hhi : s + 2 ^ h ≤ hi) (v : Version) :
    n.buildSibling H getNode ⟨v, p⟩ s h bm = .ok (sibNode H m (pathBits p ++ hb h s)) := by
  obtain ⟨bm', h1, h2⟩ := rangeBitmaps_ok hbm r hlo hhi
  unfold InternalNode.buildSibling
  simp only [h1, bind, Except.bind]
  match hkd : kids n.children s (2 ^ h) with
  | [] =>
    simp only [(zero_iff_kids h2).2 hkd, ↓reduceIte]
    rw [sibNode_nil (range_nil hc hp r hkd)]
  | e :: t =>
    have hne : ¬ bm'.1 = 0#16 := by rw [zero_iff_kids h2, hkd]; simp
    simp only [hne, ↓reduceIte]
    have he : e ∈ kids n.children s (2 ^ h) := by simp [hkd]
    have hcc := kids_canon hc he
    have hcs := canonChild_some hcc
    by_cases hoc : hasOnlyChild (2 ^ h) bm'.1 bm'.2 = true
    · simp only [hoc, ↓reduceIte, tz_kids rfl h2 hkd]
      rw [genChild_ok hp]
      simp only [hcs.2.1]
      rw [hk e.1 hcs.2.2.2.2]
      simp only [InternalNode.unwrapNode]
      -- the range holds exactly the entries of the child `e`
      have hsing : kids n.children s (2 ^ h) = [e] := by
        rcases (hasOnlyChild_kids h2).1 hoc with hw | ⟨e', he', -⟩
        · have h0 : h = 0 := by
            cases h with
            | zero => rfl
            | succ h => rw [Nat.pow_succ] at hw; omega
          subst h0
          have := kids_one n.children ⟨s, r.hs⟩
          simp only [Nat.pow_zero] at hkd
          simp only [hkd] at this
          rw [Nat.pow_zero, hkd]
          cases hcs : n.children.slots ⟨s, r.hs⟩ with
          | none => simp [hcs] at this
          | some c => simp [hcs] at this; simp [this]
        · rw [hkd] at he' ⊢
          simp at he'; simp [he']
      have hperm := range_single hc hp r hsing
      rcases len_cases (under (p ++ [e.1]) m) with h' | ⟨x, h'⟩ | h'
      · exact absurd h' hcs.2.2.2.2
      · rw [canonNode_one h']
        rw [h'] at hperm
        rw [sibNode_one (List.perm_singleton.1 hperm)]
      · rw [canonNode_two h']
        simp only
        have hpl := under_length_lt_of_two hm h'
        rw [toSM_canon canonSlots_self hpl]
        -- only possible at height 0
        have h0 : h = 0 := by
          rcases (hasOnlyChild_kids h2).1 hoc with hw | ⟨e', he', hl'⟩
          · cases h with
            | zero => rfl
            | succ h => rw [Nat.pow_succ] at hw; omega
          · rw [hsing] at he'; simp at he'; subst he'
            have := hcs.2.2.2.1.1 hl'
            omega
        subst h0
        have hes : e.1.val = s := by
          have := (mem_kids.1 he).2
          simp at this; omega
        have hbe : pathBits (p ++ [e.1]) = pathBits p ++ hb 0 s := by
          rw [pathBits_append, ← hes, hb_zero]; simp
        rw [hbe, sibNode_two (by rw [hperm.length_eq]; exact h')]
    · simp only [hoc, Bool.false_eq_true, ↓reduceIte]
      cases h with
      | zero =>
        exact absurd ((hasOnlyChild_kids h2).2 (.inl rfl)) hoc
      | succ h =>
        simp only
        rw [merkleHash_eq H n r.left h2 (Nat.le_refl _) (by rw [Nat.pow_succ]; omega),
          merkleHash_eq H n r.right h2 (Nat.le_add_right _ _) (by rw [Nat.pow_succ]; omega),
          ruleHash_canon hc hp r.left, ruleHash_canon hc hp r.right]
        rw [r.hb_left, r.hb_right, ← List.append_assoc, ← List.append_assoc]
        rw [sibNode_two]
        match t, hkd with
        | [], hkd =>
          have hperm := range_single hc hp r hkd
          rw [hperm.length_eq]
          have h1 := one_le_length hcs.2.2.2.2
          have : (under (p ++ [e.1]) m).length ≠ 1 := by
            intro hone
            exact hoc ((hasOnlyChild_kids h2).2 (.inr ⟨e, hkd, hcs.2.2.2.1.2 hone⟩))
          omega
        | e' :: t, hkd => exact range_many hc hp r hkd

theorem half_facts : ∀ h : Fin 4, ∀ i : Fin 16,
    (childAndSiblingHalfStart i h.val).1 < 16 ∧
    (childAndSiblingHalfStart i h.val).1 % 2 ^ h.val = 0 ∧
    (childAndSiblingHalfStart i h.val).2 < 16 ∧
    (childAndSiblingHalfStart i h.val).2 % 2 ^ h.val = 0 ∧
    hb h.val (childAndSiblingHalfStart i h.val).1 = hb (h.val + 1) i.val ++ [i.val.testBit h.val] ∧
    hb h.val (childAndSiblingHalfStart i h.val).2 = hb (h.val + 1) i.val ++ [!(i.val.testBit h.val)] ∧
    (childAndSiblingHalfStart i h.val).1 ≤ i.val ∧
    i.val < (childAndSiblingHalfStart i h.val).1 + 2 ^ h.val ∧
    childHalfStart i h.val = (childAndSiblingHalfStart i h.val).1 := by
  decide +kernel

/-- The last `h` bits of the nibble `i`. -/
def lowBits (h i : Nat) : List Bool :=
  ([i.testBit 3, i.testBit 2, i.testBit 1, i.testBit 0] : List Bool).drop (4 - h)

theorem lowBits_succ : ∀ h : Fin 4, ∀ i : Fin 16,
    lowBits (h.val + 1) i.val = i.val.testBit h.val :: lowBits h.val i.val := by decide

theorem hb_lowBits {h i : Nat} : hb h i ++ lowBits h i
    = [i.testBit 3, i.testBit 2, i.testBit 1, i.testBit 0] := List.take_append_drop _ _

/-- What `get_only_child_with_siblings` returns, given where the canonical walk ends. -/
structure OnlyChildRes (m : List Entry) (ver : List Nibble → Version) (p : List Nibble) (i : Nibble)
    (ck : Option NodeKey) (e1 : List Bool) : Prop where
  nil : ub e1 m = [] → ck = none
  one : ∀ e, ub e1 m = [e] → ∃ j, ck = some ⟨ver (p ++ [j]), p ++ [j]⟩ ∧ under (p ++ [j]) m = [e]
  two : 2 ≤ (ub e1 m).length → e1 = pathBits (p ++ [i]) ∧ ck = some ⟨ver (p ++ [i]), p ++ [i]⟩

theorem onlyChildLoop_canon (hm : NodupE m) {n : InternalNode}
    (hc : CanonSlots H m ver p n.children) (hp : p.length < 64)
    {getNode} (hk : KnowsKids H m ver p getNode) {bm} (hbm : BMFor n.children 0 16 bm) (v : Version)
    (i : Nibble) (h : Nat) (hh : h ≤ 4) (acc : List SMNode)
    (h2 : 2 ≤ (ub (pathBits p ++ hb h i.val) m).length) (h0 : 0 < h) :
    ∃ ck, n.getChildWithSiblingsLoop H getNode ⟨v, p⟩ i true bm h acc
        = .ok (ck, acc ++ (walk H m (pathBits p ++ hb h i.val) (lowBits h i.val)).1) ∧
      OnlyChildRes m ver p i ck (walk H m (pathBits p ++ hb h i.val) (lowBits h i.val)).2 := by
  induction h generalizing acc with
  | zero => omega
  | succ h ih =>
    obtain ⟨f1, f2, f3, f4, f5, f6, f7, f8, -⟩ := half_facts ⟨h, by omega⟩ i
    simp only at f1 f2 f3 f4 f5 f6 f7 f8
    have rc : Rng h (childAndSiblingHalfStart i h).1 := ⟨by omega, f1, f2⟩
    have rs : Rng h (childAndSiblingHalfStart i h).2 := ⟨by omega, f3, f4⟩
    have hlb := lowBits_succ ⟨h, by omega⟩ i
    simp only at hlb
    unfold InternalNode.getChildWithSiblingsLoop
    simp only [bind, Except.bind]
    rw [buildSibling_canon hm hc hp hk rs hbm (Nat.zero_le _) rs.le]
    obtain ⟨bm', g1, g2⟩ := rangeBitmaps_ok hbm rc (Nat.zero_le _) rc.le
    simp only [g1]
    rw [hlb, walk_step h2]
    rw [f6, ← List.append_assoc]
    have hb5 : pathBits p ++ hb (h + 1) i.val ++ [i.val.testBit h]
        = pathBits p ++ hb h (childAndSiblingHalfStart i h).1 := by rw [f5, List.append_assoc]
    have hbi : hb h (childAndSiblingHalfStart i h).1 = hb h i.val := by
      rw [f5]
      have := congrArg (fun l => l.take (4 - h)) (hb_lowBits (h := h + 1) (i := i.val))
      have e : hb h i.val = ([i.val.testBit 3, i.val.testBit 2, i.val.testBit 1, i.val.testBit 0] : List Bool).take (4 - h) := rfl
      rw [e, ← this, hlb, List.take_append, hb_length (by omega)]
      have : 4 - h - (4 - (h + 1)) = 1 := by omega
      rw [this, List.take_of_length_le (by rw [hb_length (by omega)]; omega)]
      simp
    match hkd : kids n.children (childAndSiblingHalfStart i h).1 (2 ^ h) with
    | [] =>
      simp only [(zero_iff_kids g2).2 hkd, ↓reduceIte]
      have hnil := range_nil hc hp rc hkd
      rw [hb5, walk_stop (by rw [hnil]; simp)]
      refine ⟨none, rfl, ⟨fun _ => rfl, ?_, ?_⟩⟩
      · intro e he; rw [hnil] at he; simp at he
      · intro h2'; rw [hnil] at h2'; simp at h2'
    | e :: t =>
      have hne : ¬ bm'.1 = 0#16 := by rw [zero_iff_kids g2, hkd]; simp
      have he : e ∈ kids n.children (childAndSiblingHalfStart i h).1 (2 ^ h) := by simp [hkd]
      have hcc := kids_canon hc he
      have hcs := canonChild_some hcc
      simp only [hne, ↓reduceIte, Bool.true_and, Bool.not_true, Bool.false_and, Bool.false_eq_true]
      by_cases hoc : hasOnlyChild (2 ^ h) bm'.1 bm'.2 = true
      · simp only [hoc, ↓reduceIte, tz_kids rfl g2 hkd, genChild_ok hp]
        refine ⟨some ⟨ver (p ++ [e.1]), p ++ [e.1]⟩, ?_, ?_⟩
        · rw [hcs.2.1, hb5]
          congr 2
          congr 2
          congr 1
          by_cases hz : h = 0
          · subst hz; simp [lowBits, walk]
          · rcases (hasOnlyChild_kids g2).1 hoc with hw | ⟨e', he', hl'⟩
            · obtain ⟨h', rfl⟩ := Nat.exists_eq_succ_of_ne_zero hz
              rw [Nat.pow_succ] at hw; omega
            · have : e' = e := by rw [hkd] at he'; simp at he'; exact he'.1.symm
              subst this
              rw [walk_stop]
              rw [(range_single hc hp rc he').length_eq, hcs.2.2.2.1.1 hl']
              exact Nat.le_refl _
        · by_cases hz : h = 0
          · subst hz
            have hei : e.1 = i := by
              have h3 := (mem_kids.1 he).2
              simp at h3 f8
              exact Fin.ext (by omega)
            have hwe : (walk H m (pathBits p ++ hb (0 + 1) i.val ++ [i.val.testBit 0]) (lowBits 0 i.val)).2
                = pathBits (p ++ [i]) := by
              have : lowBits 0 i.val = [] := by simp [lowBits]
              rw [this]
              simp only [walk]
              rw [hb5, hbi, hb_zero]
              simp
            have hwe' : (sibNode H m (pathBits p ++ hb (0 + 1) i.val ++ [!i.val.testBit 0]) ::
                (walk H m (pathBits p ++ hb (0 + 1) i.val ++ [i.val.testBit 0]) (lowBits 0 i.val)).1,
                (walk H m (pathBits p ++ hb (0 + 1) i.val ++ [i.val.testBit 0]) (lowBits 0 i.val)).2).2
                = pathBits (p ++ [i]) := hwe
            rw [hwe', hei]
            refine ⟨fun hn => ?_, fun e' he' => ⟨i, rfl, he'⟩, fun _ => ⟨rfl, rfl⟩⟩
            rw [hei] at hcs
            exact absurd hn hcs.2.2.2.2
          · rcases (hasOnlyChild_kids g2).1 hoc with hw | ⟨e', he', hl'⟩
            · obtain ⟨h', rfl⟩ := Nat.exists_eq_succ_of_ne_zero hz
              rw [Nat.pow_succ] at hw; omega
            · have : e' = e := by rw [hkd] at he'; simp at he'; exact he'.1.symm
              subst this
              have hper := range_single hc hp rc he'
              have hone := hcs.2.2.2.1.1 hl'
              rw [hb5, walk_stop (by rw [hper.length_eq, hone]; exact Nat.le_refl _)]
              refine ⟨fun hn => ?_, fun x hx => ⟨e'.1, rfl, ?_⟩, fun h2' => ?_⟩
              · simp only at hn
                rw [hn] at hper
                have := hper.length_eq; simp at this; omega
              · simp only at hx
                rw [hx] at hper
                exact List.perm_singleton.1 hper.symm
              · simp only at h2'
                rw [hper.length_eq] at h2'; omega
      · simp only [hoc, Bool.false_eq_true, ↓reduceIte]
        have hz : 0 < h := by
          apply Nat.pos_of_ne_zero
          rintro rfl
          exact hoc ((hasOnlyChild_kids g2).2 (.inl rfl))
        have h2' : 2 ≤ (ub (pathBits p ++ hb h i.val) m).length := by
          rw [← hbi]
          match t, hkd with
          | [], hkd =>
            have hperm := range_single hc hp rc hkd
            rw [hperm.length_eq]
            have h1 := one_le_length hcs.2.2.2.2
            have : (under (p ++ [e.1]) m).length ≠ 1 := by
              intro hone
              exact hoc ((hasOnlyChild_kids g2).2 (.inr ⟨e, hkd, hcs.2.2.2.1.2 hone⟩))
            omega
          | e' :: t, hkd => exact range_many hc hp rc hkd
        obtain ⟨ck, hck, hres⟩ := ih (by omega)
          (acc ++ [sibNode H m (pathBits p ++ hb (h + 1) i.val ++ [!i.val.testBit h])]) h2' hz
        rw [hb5, hbi]
        exact ⟨ck, by rw [hck]; simp, hres⟩

theorem onlyChild_canon (hm : NodupE m) {n : InternalNode}
    (hc : CanonSlots H m ver p n.children) (h2 : 2 ≤ (under p m).length)
    {getNode} (hk : KnowsKids H m ver p getNode) (v : Version) (i : Nibble) :
    ∃ ck, n.getChildWithSiblings H getNode ⟨v, p⟩ i true
        = .ok (ck, (walk H m (pathBits p) (nibbleBits i)).1) ∧
      OnlyChildRes m ver p i ck (walk H m (pathBits p) (nibbleBits i)).2 := by
  obtain ⟨bm, h1, hbm⟩ := generateBitmaps_ok n
  have := onlyChildLoop_canon hm hc (under_length_lt_of_two hm h2) hk hbm v i 4 (Nat.le_refl _) []
    (by rw [hb_four, List.append_nil]; exact h2) (by decide)
  unfold InternalNode.getChildWithSiblings
  simp only [h1, bind, Except.bind]
  have e4 : lowBits 4 i.val = nibbleBits i := rfl
  rw [hb_four, List.append_nil, e4] at this
  simpa using this

theorem kids_single_of_mem {cs : Children} {s : Nat} {e : Nibble × Child} {t}
    (hk : kids cs s 1 = e :: t) : t = [] ∧ e.1.val = s := by
  have he : e ∈ kids cs s 1 := by simp [hk]
  have h1 := (mem_kids.1 he).2
  refine ⟨?_, by omega⟩
  match t, hk with
  | [], _ => rfl
  | e' :: t, hk =>
    exfalso
    have h2 := (mem_kids.1 (show e' ∈ kids cs s 1 by simp [hk])).2
    have hp := kids_pairwise cs s 1
    rw [hk, List.pairwise_cons] at hp
    have h3 : e.1.val < e'.1.val := hp.1 e' (by simp)
    omega

/-- When the child at index `i` exists, `get_child_with_siblings` and
`get_only_child_with_siblings` agree. -/
theorem childLoop_eq_onlyChildLoop {n : InternalNode} {getNode} {bm}
    (hbm : BMFor n.children 0 16 bm) (nk : NodeKey) {i : Nibble} {c : Child}
    (hi : n.children.slots i = some c) (h : Nat) (hh : h ≤ 4) (acc : List SMNode) :
    n.getChildWithSiblingsLoop H getNode nk i false bm h acc
      = n.getChildWithSiblingsLoop H getNode nk i true bm h acc := by
  induction h generalizing acc with
  | zero => rfl
  | succ h ih =>
    obtain ⟨f1, f2, f3, f4, f5, f6, f7, f8, -⟩ := half_facts ⟨h, by omega⟩ i
    simp only at f1 f2 f3 f4 f5 f6 f7 f8
    have rc : Rng h (childAndSiblingHalfStart i h).1 := ⟨by omega, f1, f2⟩
    obtain ⟨bm', g1, g2⟩ := rangeBitmaps_ok hbm rc (Nat.zero_le _) rc.le
    unfold InternalNode.getChildWithSiblingsLoop
    simp only [bind, Except.bind]
    cases n.buildSibling H getNode nk (childAndSiblingHalfStart i h).2 h bm with
    | error e => rfl
    | ok sib =>
      simp only [g1]
      have hik : (i, c) ∈ kids n.children (childAndSiblingHalfStart i h).1 (2 ^ h) :=
        mem_kids.2 ⟨hi, f7, f8⟩
      have hne : ¬ bm'.1 = 0#16 := by
        rw [zero_iff_kids g2]; intro hc; rw [hc] at hik; simp at hik
      have hbit : bm'.1.getLsbD i.val = true := by
        rw [(g2 i).1, hi]; simp [f7, f8]
      -- the two tests agree
      have hone : ∀ {e}, kids n.children (childAndSiblingHalfStart i h).1 (2 ^ h) = [e] → e = (i, c) := by
        intro e he; rw [he] at hik; simp at hik; exact hik.symm
      have htest : hasChild (2 ^ h) bm'.1 ((1 : BitVec 16) <<< i.val) bm'.2
          = hasOnlyChild (2 ^ h) bm'.1 bm'.2 := by
        unfold hasChild hasOnlyChild
        congr 2
        rw [Bool.eq_iff_iff, beq_iff_eq, beq_iff_eq, countOnes_kids g2]
        constructor
        · intro heq
          have hall : ∀ e ∈ kids n.children (childAndSiblingHalfStart i h).1 (2 ^ h), e = (i, c) := by
            intro e he
            have h3 := mem_kids.1 he
            have h4 := (g2 e.1).1
            rw [heq, getLsbD_one_shl, h3.1] at h4
            simp [h3.2] at h4
            obtain ⟨e1, e2⟩ := e
            simp only at h4
            subst h4
            have := h3.1; simp only at this; rw [hi] at this; cases this; rfl
          match hkd : kids n.children (childAndSiblingHalfStart i h).1 (2 ^ h) with
          | [] => rw [hkd] at hik; simp at hik
          | [_] => rfl
          | e :: e' :: t =>
            exfalso
            have h5 := hall e (by simp [hkd])
            have h6 := hall e' (by simp [hkd])
            have hpw := kids_pairwise n.children (childAndSiblingHalfStart i h).1 (2 ^ h)
            rw [hkd, List.pairwise_cons] at hpw
            have := hpw.1 e' (by simp)
            rw [h5, h6] at this
            exact absurd this (Nat.lt_irrefl _)
        · intro hl
          obtain ⟨e, he⟩ := List.length_eq_one_iff.1 hl
          have hei := hone he
          subst hei
          apply BitVec.eq_of_getLsbD_eq
          intro j hj
          have h7 := getLsbD_one_shl i ⟨j, hj⟩
          simp only at h7
          rw [h7]
          by_cases hji : (⟨j, hj⟩ : Fin 16) = i
          · subst hji; simp only [decide_true]; exact hbit
          · simp only [hji, decide_false]
            rw [Bool.eq_false_iff]
            intro hb
            have h8 := (g2 ⟨j, hj⟩).1
            simp only at h8
            rw [hb] at h8
            have h8 := h8.symm
            simp only [Bool.and_eq_true, decide_eq_true_eq] at h8
            obtain ⟨c', hc'⟩ := Option.isSome_iff_exists.1 h8.2
            have : ((⟨j, hj⟩ : Fin 16), c') ∈ kids n.children (childAndSiblingHalfStart i h).1 (2 ^ h) :=
              mem_kids.2 ⟨hc', h8.1⟩
            rw [he] at this
            simp at this
            exact hji this.1
      simp only [hne, ↓reduceIte, Bool.true_and, Bool.not_true, Bool.false_and, Bool.false_eq_true,
        Bool.not_false, htest]
      by_cases hoc : hasOnlyChild (2 ^ h) bm'.1 bm'.2 = true
      · simp only [hoc, ↓reduceIte]
        have hidx : n.childAtIdx i.val = .ok (i, c) := by
          simp [InternalNode.childAtIdx, Nibble.ofNat?, InternalNode.child, hi]
        match hkd : kids n.children (childAndSiblingHalfStart i h).1 (2 ^ h) with
        | [] => rw [hkd] at hik; simp at hik
        | e :: t =>
          have hsing : t = [] := by
            rcases (hasOnlyChild_kids g2).1 hoc with hw | ⟨e', he', -⟩
            · rw [hw] at hkd; exact (kids_single_of_mem hkd).1
            · rw [hkd] at he'; simp at he'; exact he'.2
          subst hsing
          have hei := hone hkd
          subst hei
          rw [tz_kids rfl g2 hkd, hidx]
      · simp only [hoc, Bool.false_eq_true, ↓reduceIte]
        exact ih (by omega) _

theorem child_canon (hm : NodupE m) {n : InternalNode}
    (hc : CanonSlots H m ver p n.children) (h2 : 2 ≤ (under p m).length)
    {getNode} (hk : KnowsKids H m ver p getNode) (v : Version) (i : Nibble)
    (hne : under (p ++ [i]) m ≠ []) :
    n.getChildWithSiblings H getNode ⟨v, p⟩ i false
        = .ok (some ⟨ver (p ++ [i]), p ++ [i]⟩, (walk H m (pathBits p) (nibbleBits i)).1) := by
  obtain ⟨c, hcc⟩ := Option.isSome_iff_exists.1
    ((canonChild_isSome (H := H) (m := m) (ver := ver)).2 hne)
  rw [← hc] at hcc
  obtain ⟨bm, h1, hbm⟩ := generateBitmaps_ok n
  obtain ⟨ck, hck, hres⟩ := onlyChild_canon hm hc h2 hk v i
  have heq : n.getChildWithSiblings H getNode ⟨v, p⟩ i false
      = n.getChildWithSiblings H getNode ⟨v, p⟩ i true := by
    unfold InternalNode.getChildWithSiblings
    simp only [h1, bind, Except.bind]
    exact childLoop_eq_onlyChildLoop hbm _ hcc 4 (Nat.le_refl _) []
  rw [heq, hck]
  congr 2
  -- the walk follows the bits of `i`, so it ends above the child `i`
  have hsub : ∀ (b xs : List Bool), (walk H m b xs).2 <+: b ++ xs := by
    intro b xs
    induction xs generalizing b with
    | nil => simp [walk]
    | cons x xs ih =>
      by_cases hl : (ub b m).length ≤ 1
      · rw [walk_stop hl]; exact List.prefix_append _ _
      · rw [walk_step (by omega)]
        have := ih (b ++ [x])
        simpa using this
  have hpre := hsub (pathBits p) (nibbleBits i)
  have hpre' : (walk H m (pathBits p) (nibbleBits i)).2 <+: pathBits (p ++ [i]) := by simpa using hpre
  have hin : ∀ e ∈ under (p ++ [i]) m, e ∈ ub (walk H m (pathBits p) (nibbleBits i)).2 m := by
    intro e he
    have he := mem_ub.1 he
    exact mem_ub.2 ⟨he.1, hpre'.trans he.2⟩
  rcases len_cases (ub (walk H m (pathBits p) (nibbleBits i)).2 m) with h | ⟨e, h⟩ | h
  · exfalso
    obtain ⟨e, he⟩ := List.exists_mem_of_ne_nil _ hne
    have := hin e he
    rw [h] at this; simp at this
  · obtain ⟨j, hj1, hj2⟩ := hres.one e h
    rw [hj1]
    have hij : i = j := by
      obtain ⟨x, hx⟩ := List.exists_mem_of_ne_nil _ hne
      have h3 := hin x hx
      rw [h] at h3; simp at h3; subst h3
      have h4 := (mem_under.1 hx).2
      have h5 := (mem_under.1 (show x ∈ under (p ++ [j]) m by rw [hj2]; simp)).2
      have := List.prefix_of_prefix_length_le h4 h5 (by simp)
      have := this.eq_of_length (by simp)
      simpa using this
    rw [hij]
  · exact (hres.two h).2

end
end Jmt
