import Verif.Proofs.Bits
import Verif.Proofs.NodeHash
/-!
# The canonical tree of a list of entries

`m` lists the entries (distinct keys), `ver` assigns a version to every nibble path.
-/
namespace Jmt
open Spec (Entry)

variable (H : Hasher)

/-- Child record of the subtree at `q`. -/
def canonChild (m : List Entry) (ver : List Nibble → Version) (q : List Nibble) : Option Child :=
  match under q m with
  | [] => none
  | [e] => some ⟨H.leafHash e.1 e.2, ver q, .leaf⟩
  | es => some ⟨sh H m (pathBits q), ver q, .internal es.length⟩

/-- Children of the internal node at `p`. -/
def canonChildren (m : List Entry) (ver : List Nibble → Version) (p : List Nibble) : Children :=
  ⟨fun i => canonChild H m ver (p ++ [i]),
   (List.finRange 16).countP (fun i => (canonChild H m ver (p ++ [i])).isSome)⟩

/-- The internal node at `p`. -/
def canonInternal (m : List Entry) (ver : List Nibble → Version) (p : List Nibble) : InternalNode :=
  ⟨canonChildren H m ver p, (under p m).length⟩

/-- The node at `p`. -/
def canonNode (m : List Entry) (ver : List Nibble → Version) (p : List Nibble) : Node :=
  match under p m with
  | [] => .null
  | [e] => .leaf ⟨e.1, e.2⟩
  | _ => .internal (canonInternal H m ver p)

/-! ### Case lemmas -/

section cases
variable {H} {m : List Entry} {ver : List Nibble → Version} {p : List Nibble}

theorem len_cases (l : List Entry) : l = [] ∨ (∃ e, l = [e]) ∨ 2 ≤ l.length := by
  match l with
  | [] => exact .inl rfl
  | [e] => exact .inr (.inl ⟨e, rfl⟩)
  | _ :: _ :: _ => exact .inr (.inr (by simp))

theorem canonChild_nil (h : under p m = []) : canonChild H m ver p = none := by
  simp [canonChild, h]
theorem canonChild_one {e} (h : under p m = [e]) :
    canonChild H m ver p = some ⟨H.leafHash e.1 e.2, ver p, .leaf⟩ := by
  simp [canonChild, h]
theorem canonChild_two (h : 2 ≤ (under p m).length) :
    canonChild H m ver p = some ⟨sh H m (pathBits p), ver p, .internal (under p m).length⟩ := by
  match hu : under p m with
  | [] => simp [hu] at h
  | [e] => simp [hu] at h
  | e :: e' :: t => simp [canonChild, hu]

theorem canonNode_nil (h : under p m = []) : canonNode H m ver p = .null := by
  simp [canonNode, h]
theorem canonNode_one {e} (h : under p m = [e]) : canonNode H m ver p = .leaf ⟨e.1, e.2⟩ := by
  simp [canonNode, h]
theorem canonNode_two (h : 2 ≤ (under p m).length) :
    canonNode H m ver p = .internal (canonInternal H m ver p) := by
  match hu : under p m with
  | [] => simp [hu] at h
  | [e] => simp [hu] at h
  | e :: e' :: t => simp [canonNode, hu]

theorem canonChild_isSome : (canonChild H m ver p).isSome = true ↔ under p m ≠ [] := by
  rcases len_cases (under p m) with h | ⟨e, h⟩ | h
  · simp [canonChild_nil h, h]
  · simp [canonChild_one h, h]
  · simp only [canonChild_two h, Option.isSome_some, true_iff]
    intro hc; simp [hc] at h

/-- What a canonical child record says. -/
theorem canonChild_some {c : Child} (h : canonChild H m ver p = some c) :
    c.hash = sh H m (pathBits p) ∧ c.version = ver p ∧ c.leafCount = (under p m).length ∧
    (c.isLeaf = true ↔ (under p m).length = 1) ∧ under p m ≠ [] := by
  rcases len_cases (under p m) with h' | ⟨e, h'⟩ | h'
  · simp [canonChild_nil h'] at h
  · rw [canonChild_one h'] at h
    cases h
    have := sh_one H h'
    simp [Child.leafCount, Child.isLeaf, h', this]
  · rw [canonChild_two h'] at h
    cases h
    refine ⟨rfl, rfl, rfl, ?_, ?_⟩
    · simp [Child.isLeaf]; omega
    · intro hc; simp [hc] at h'

end cases

/-! ### Ranges of children and bit prefixes -/

/-- The first `4 - h` bits of the nibble `s`. -/
def hb (h s : Nat) : List Bool :=
  ([s.testBit 3, s.testBit 2, s.testBit 1, s.testBit 0] : List Bool).take (4 - h)

theorem hb_zero (i : Nibble) : hb 0 i.val = nibbleBits i := rfl
theorem hb_four (s : Nat) : hb 4 s = [] := rfl

theorem hb_split : ∀ h : Fin 4, ∀ s : Fin 16, s.val % 2 ^ (h.val + 1) = 0 →
    hb h.val s.val = hb (h.val + 1) s.val ++ [false] ∧
    hb h.val (s.val + 2 ^ h.val) = hb (h.val + 1) s.val ++ [true] := by decide

theorem Rng.hb_left {h s : Nat} (r : Rng (h + 1) s) : hb h s = hb (h + 1) s ++ [false] :=
  (hb_split ⟨h, by have := r.hh; omega⟩ ⟨s, r.hs⟩ r.al).1
theorem Rng.hb_right {h s : Nat} (r : Rng (h + 1) s) : hb h (s + 2 ^ h) = hb (h + 1) s ++ [true] :=
  (hb_split ⟨h, by have := r.hh; omega⟩ ⟨s, r.hs⟩ r.al).2

theorem hb_length {h s : Nat} (hh : h ≤ 4) : (hb h s).length = 4 - h := by
  simp [hb]

theorem ub_split_perm {b : List Bool} (hb : b.length < 256) (m : List Entry) :
    (ub (b ++ [false]) m ++ ub (b ++ [true]) m).Perm (ub b m) := by
  rw [ub_snoc hb, ub_snoc hb]
  have := List.filter_append_perm (fun e : Entry => Spec.bit e.1 b.length == false) (ub b m)
  refine List.Perm.trans ?_ this
  apply List.Perm.append_left
  apply List.Perm.of_eq
  congr 1
  funext e
  cases Spec.bit e.1 b.length <;> rfl

theorem ub_split_length {b : List Bool} (hb : b.length < 256) (m : List Entry) :
    (ub (b ++ [false]) m).length + (ub (b ++ [true]) m).length = (ub b m).length := by
  have := (ub_split_perm hb m).length_eq
  simpa using this

section range
variable {H} {m : List Entry} {ver : List Nibble → Version} {p : List Nibble} {cs : Children}

/-- `cs` are the canonical children at `p`, as far as the slots go. -/
def CanonSlots (H : Hasher) (m : List Entry) (ver : List Nibble → Version) (p : List Nibble)
    (cs : Children) : Prop := ∀ i, cs.slots i = canonChild H m ver (p ++ [i])

/-- The entries below a range are the entries of the children in that range. -/
theorem range_perm (hc : CanonSlots H m ver p cs) (hp : p.length < 64) {h s : Nat} (r : Rng h s) :
    (ub (pathBits p ++ hb h s) m).Perm
      ((kids cs s (2 ^ h)).flatMap (fun e => under (p ++ [e.1]) m)) := by
  induction h generalizing s with
  | zero =>
    have hi := r.hs
    have hk := kids_one cs ⟨s, hi⟩
    simp only at hk
    have hu : ub (pathBits p ++ hb 0 s) m = under (p ++ [⟨s, hi⟩]) m := by
      show _ = ub (pathBits (p ++ [⟨s, hi⟩])) m
      rw [pathBits_append]
      have := hb_zero ⟨s, hi⟩
      simp only at this
      rw [this]; simp
    rw [hu, Nat.pow_zero, hk]
    have hs := hc ⟨s, hi⟩
    cases hcs : cs.slots ⟨s, hi⟩ with
    | none =>
      have h1 : under (p ++ [⟨s, hi⟩]) m = [] := by
        apply Classical.byContradiction
        intro hne
        have := (canonChild_isSome (H := H) (ver := ver)).2 hne
        rw [← hs, hcs] at this
        simp at this
      simp [h1]
    | some c => simp
  | succ h ih =>
    rw [Nat.pow_succ, Nat.mul_two, kids_split, List.flatMap_append]
    have hb1 : (pathBits p ++ hb (h + 1) s).length < 256 := by
      have := hb_length (s := s) r.hh
      simp [this]; omega
    refine (ub_split_perm hb1 m).symm.trans ?_
    have h1 := ih r.left
    have h2 := ih r.right
    rw [r.hb_left, ← List.append_assoc] at h1
    rw [r.hb_right, ← List.append_assoc] at h2
    exact h1.append h2

theorem kids_canon (hc : CanonSlots H m ver p cs) {s w : Nat} {e : Nibble × Child}
    (he : e ∈ kids cs s w) : canonChild H m ver (p ++ [e.1]) = some e.2 := by
  rw [← hc]; exact (mem_kids.1 he).1

theorem under_ne_nil_of_kid (hc : CanonSlots H m ver p cs) {s w : Nat} {e : Nibble × Child}
    (he : e ∈ kids cs s w) : under (p ++ [e.1]) m ≠ [] :=
  (canonChild_some (kids_canon hc he)).2.2.2.2

theorem one_le_length {α} {l : List α} (h : l ≠ []) : 1 ≤ l.length := by
  cases l with
  | nil => exact absurd rfl h
  | cons => simp

/-- Reading the number of entries below a range off its children. -/
theorem range_nil (hc : CanonSlots H m ver p cs) (hp : p.length < 64) {h s : Nat} (r : Rng h s)
    (hk : kids cs s (2 ^ h) = []) : ub (pathBits p ++ hb h s) m = [] := by
  have := range_perm hc hp r
  rw [hk] at this
  simpa using this

theorem range_single (hc : CanonSlots H m ver p cs) (hp : p.length < 64) {h s : Nat} (r : Rng h s)
    {e} (hk : kids cs s (2 ^ h) = [e]) :
    (ub (pathBits p ++ hb h s) m).Perm (under (p ++ [e.1]) m) := by
  have := range_perm hc hp r
  rw [hk] at this
  simpa using this

theorem range_many (hc : CanonSlots H m ver p cs) (hp : p.length < 64) {h s : Nat} (r : Rng h s)
    {e e' t} (hk : kids cs s (2 ^ h) = e :: e' :: t) : 2 ≤ (ub (pathBits p ++ hb h s) m).length := by
  have hl := (range_perm hc hp r).length_eq
  rw [hk] at hl
  have h1 := one_le_length (under_ne_nil_of_kid hc (e := e) (by rw [hk]; simp))
  have h2 := one_le_length (under_ne_nil_of_kid hc (e := e') (by rw [hk]; simp))
  simp only [List.flatMap_cons, List.length_append] at hl
  omega

/-- The four-level rule computes the canonical subtree hash. -/
theorem ruleHash_canon (hc : CanonSlots H m ver p cs) (hp : p.length < 64) {h s : Nat}
    (r : Rng h s) : ruleHash H cs h s = sh H m (pathBits p ++ hb h s) := by
  induction h generalizing s with
  | zero =>
    unfold ruleHash
    match hk : kids cs s 1 with
    | [] => exact (sh_zero H (range_nil hc hp r hk)).symm
    | [e] =>
      have h1 := range_single hc hp r hk
      simp only
      have h2 := canonChild_some (kids_canon hc (e := e) (s := s) (w := 1) (by simp [hk]))
      rw [h2.1]
      have hi := r.hs
      have hk1 := kids_one cs ⟨s, hi⟩
      simp only [hk] at hk1
      have : e.1 = ⟨s, hi⟩ := by
        cases hcs : cs.slots ⟨s, hi⟩ with
        | none => simp [hcs] at hk1
        | some c => simp [hcs] at hk1; rw [hk1]
      rw [this, pathBits_append]
      have h0 := hb_zero ⟨s, hi⟩
      simp only at h0
      rw [h0]; simp
    | e :: e' :: t =>
      exfalso
      have hk1 := kids_one cs ⟨s, r.hs⟩
      simp only [hk] at hk1
      cases hcs : cs.slots ⟨s, r.hs⟩ <;> simp [hcs] at hk1
  | succ h ih =>
    have hl := ih r.left
    have hr := ih r.right
    rw [r.hb_left, ← List.append_assoc] at hl
    rw [r.hb_right, ← List.append_assoc] at hr
    have hb1 : (pathBits p ++ hb (h + 1) s).length < 256 := by
      have := hb_length (s := s) r.hh
      simp [this]; omega
    unfold ruleHash
    match hk : kids cs s (2 ^ (h + 1)) with
    | [] => exact (sh_zero H (range_nil hc hp r hk)).symm
    | [e] =>
      have h1 := range_single hc hp r hk
      have h2 := canonChild_some (kids_canon hc (e := e) (s := s) (w := 2 ^ (h + 1)) (by simp [hk]))
      simp only
      by_cases hlf : e.2.isLeaf = true
      · rw [if_pos hlf, h2.1]
        obtain ⟨x, hx⟩ := List.length_eq_one_iff.1 (h2.2.2.2.1.1 hlf)
        rw [hx] at h1
        rw [sh_one H hx, sh_one H (List.perm_singleton.1 h1)]
      · rw [if_neg hlf, hl, hr]
        refine (sh_two H hb1 ?_).symm
        rw [h1.length_eq]
        have h3 := one_le_length h2.2.2.2.2
        have h4 : (under (p ++ [e.1]) m).length ≠ 1 := fun h => hlf (h2.2.2.2.1.2 h)
        omega
    | e :: e' :: t =>
      simp only
      rw [hl, hr]
      exact (sh_two H hb1 (range_many hc hp r hk)).symm

end range

/-! ### Canonical nodes -/

section nodes
variable {H} {m : List Entry} {ver : List Nibble → Version} {p : List Nibble}

theorem canonSlots_self : CanonSlots H m ver p (canonInternal H m ver p).children := fun _ => rfl

theorem internal_hash_canon {n : InternalNode} (hc : CanonSlots H m ver p n.children)
    (hp : p.length < 64) : n.hash H = .ok (sh H m (pathBits p)) := by
  rw [internal_hash_eq, ruleHash_canon hc hp rng_4_0]
  simp [hb_four]

theorem toSM_canon {n : InternalNode} (hc : CanonSlots H m ver p n.children) (hp : p.length < 64) :
    n.toSM H = .ok (.internal (sh H m (pathBits p ++ [false])) (sh H m (pathBits p ++ [true]))) := by
  rw [toSM_eq, ruleHash_canon hc hp rng_3_0, ruleHash_canon hc hp rng_3_8]
  rfl

theorem canonNode_hash (hm : NodupE m) : (canonNode H m ver p).hash H = .ok (sh H m (pathBits p)) := by
  rcases len_cases (under p m) with h | ⟨e, h⟩ | h
  · rw [canonNode_nil h, sh_zero H h]; rfl
  · rw [canonNode_one h, sh_one H h]; rfl
  · rw [canonNode_two h]
    exact internal_hash_canon canonSlots_self (under_length_lt_of_two hm h)

theorem canonNode_leafCount : (canonNode H m ver p).leafCount = (under p m).length := by
  rcases len_cases (under p m) with h | ⟨e, h⟩ | h
  · rw [canonNode_nil h, h]; rfl
  · rw [canonNode_one h, h]; rfl
  · rw [canonNode_two h]; rfl

theorem canonNode_isLeaf : (canonNode H m ver p).isLeaf = true ↔ (under p m).length = 1 := by
  rcases len_cases (under p m) with h | ⟨e, h⟩ | h
  · rw [canonNode_nil h, h]; simp [Node.isLeaf]
  · rw [canonNode_one h, h]; simp [Node.isLeaf]
  · rw [canonNode_two h]; simp [Node.isLeaf]; omega

/-- Child record built from a canonical node. -/
theorem canonNode_nodeType (h : under p m ≠ []) :
    ∃ t, (canonNode H m ver p).nodeType = .ok t ∧
      canonChild H m ver p = some ⟨sh H m (pathBits p), ver p, t⟩ := by
  rcases len_cases (under p m) with h' | ⟨e, h'⟩ | h'
  · exact absurd h' h
  · rw [canonNode_one h', canonChild_one h', sh_one H h']
    exact ⟨_, rfl, rfl⟩
  · rw [canonNode_two h', canonChild_two h']
    exact ⟨_, rfl, rfl⟩

/-- The entries at `p` are the entries of its children. -/
theorem under_perm {cs : Children} (hc : CanonSlots H m ver p cs) (hp : p.length < 64) :
    (under p m).Perm (cs.iter.flatMap (fun e => under (p ++ [e.1]) m)) := by
  have := range_perm hc hp rng_4_0
  rw [hb_four, List.append_nil] at this
  rw [← kids_full]
  exact this

theorem sumLeafCount_canon {cs : Children} (hc : CanonSlots H m ver p cs) (hp : p.length < 64) :
    InternalNode.sumLeafCount cs = (under p m).length := by
  rw [(under_perm hc hp).length_eq]
  unfold InternalNode.sumLeafCount
  have hv : cs.values = cs.iter.map Prod.snd := by
    unfold Children.values Children.iter
    rw [List.map_filterMap]
    congr 1
    funext i
    cases cs.slots i <;> rfl
  rw [hv, List.map_map, List.length_flatMap]
  congr 1
  apply List.map_congr_left
  intro e he
  have := kids_canon hc (s := 0) (w := 16) (by rw [kids_full]; exact he)
  exact (canonChild_some this).2.2.1

theorem values_eq (cs : Children) : cs.values = cs.iter.map Prod.snd := by
  unfold Children.values Children.iter
  rw [List.map_filterMap]
  congr 1
  funext i
  cases cs.slots i <;> rfl

theorem iter_length (cs : Children) :
    cs.iter.length = (List.finRange 16).countP (fun i => (cs.slots i).isSome) := by
  unfold Children.iter
  rw [List.length_filterMap_eq_countP]
  congr 1
  funext i
  simp

/-- Building an internal node from canonical children of a subtree with at least two entries. -/
theorem new_canon {cs : Children} (hc : CanonSlots H m ver p cs) (hp : p.length < 64)
    (hn : cs.numChildren = (List.finRange 16).countP (fun i => (cs.slots i).isSome))
    (h2 : 2 ≤ (under p m).length) :
    InternalNode.new cs = .ok (canonInternal H m ver p) := by
  have hcs : cs = canonChildren H m ver p := by
    cases cs with
    | mk slots num =>
      have : slots = fun i => canonChild H m ver (p ++ [i]) := funext hc
      subst this
      simp only at hn
      subst hn
      rfl
  have hsum := sumLeafCount_canon hc hp
  have hlen : cs.numChildren = cs.iter.length := by rw [hn, iter_length]
  have hp' := under_perm hc hp
  unfold InternalNode.new
  match hi : cs.iter with
  | [] => rw [hi] at hp'; simp at hp'; simp [hp'] at h2
  | [e] =>
    have he := kids_canon hc (s := 0) (w := 16) (e := e) (by rw [kids_full, hi]; simp)
    have hee := canonChild_some he
    rw [hi] at hp' hlen
    simp at hp' hlen
    have hnl : e.2.isLeaf = false := by
      rw [Bool.eq_false_iff]
      intro hl
      have := hee.2.2.2.1.1 hl
      have := hp'.length_eq
      omega
    have hv : cs.values = [e.2] := by rw [values_eq, hi]; rfl
    simp [hlen, hv, hnl, hsum, canonInternal, ← hcs]
  | e :: e' :: t =>
    rw [hi] at hlen
    simp at hlen
    have h0 : cs.numChildren ≠ 0 := by omega
    have h1 : cs.numChildren ≠ 1 := by omega
    simp only [h0, h1, ↓reduceIte, hsum, canonInternal]
    rw [← hcs]

end nodes

/-! ### Dependence on the entries -/

section congr
variable {H} {m m' : List Entry} {ver ver' : List Nibble → Version} {p : List Nibble}

theorem canonChild_congr (hu : (under p m).Perm (under p m'))
    (hv : under p m ≠ [] → ver p = ver' p) :
    canonChild H m ver p = canonChild H m' ver' p := by
  have hl := hu.length_eq
  rcases len_cases (under p m) with h | ⟨e, h⟩ | h
  · rw [h] at hu
    rw [canonChild_nil h, canonChild_nil (List.Perm.nil_eq hu).symm]
  · rw [h] at hu
    have h' : under p m' = [e] := List.perm_singleton.1 hu.symm
    rw [canonChild_one h, canonChild_one h', hv (by simp [h])]
  · rw [canonChild_two h, canonChild_two (by omega), hv (by intro hc; simp [hc] at h), hl,
      sh_perm H hu]

theorem under_child_sub {q : List Nibble} (i : Nibble) {e : Entry} (h : e ∈ under (q ++ [i]) m) :
    e ∈ under q m := by
  rw [mem_under] at *
  exact ⟨h.1, (List.prefix_append _ _).trans h.2⟩

theorem under_under {q q' : List Nibble} (h : q <+: q') (m) : under q' (under q m) = under q' m :=
  ub_ub (pathBits_prefix.2 h) m

theorem under_perm_of {q q' : List Nibble} (h : q <+: q') (hu : (under q m).Perm (under q m')) :
    (under q' m).Perm (under q' m') := by
  rw [← under_under h m, ← under_under h m']
  exact hu.filter _

theorem canonNode_congr (hu : (under p m).Perm (under p m'))
    (hv : 2 ≤ (under p m).length → ∀ i, under (p ++ [i]) m ≠ [] → ver (p ++ [i]) = ver' (p ++ [i])) :
    canonNode H m ver p = canonNode H m' ver' p := by
  have hl := hu.length_eq
  rcases len_cases (under p m) with h | ⟨e, h⟩ | h
  · rw [h] at hu
    rw [canonNode_nil h, canonNode_nil (List.Perm.nil_eq hu).symm]
  · rw [h] at hu
    have h' : under p m' = [e] := List.perm_singleton.1 hu.symm
    rw [canonNode_one h, canonNode_one h']
  · rw [canonNode_two h, canonNode_two (by omega)]
    have hc : ∀ i, canonChild H m ver (p ++ [i]) = canonChild H m' ver' (p ++ [i]) := fun i =>
      canonChild_congr (under_perm_of (List.prefix_append _ _) hu) (hv h i)
    simp only [canonInternal, canonChildren, hl, hc]

end congr

end Jmt
