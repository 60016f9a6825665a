import Verif.Proofs.RestoreNodes
import Verif.Proofs.Range
import Verif.Spec.Restore
/-!
# The siblings computed by the receiver of a snapshot
-/
namespace Jmt
open Spec (Entry)

section
variable {H : Hasher} {m : List Entry} {w : Version} {k : KeyHash} {vh : ValueHash} {n : Nat}

/-- The strings of a subtree are strings of the tree. -/
theorem ts_sub (hm : NodupE m) (b : List Bool) : ∀ p ∈ ts H m b, p ∈ ts H m [] := by
  have key : ∀ c : List Bool, ∀ p ∈ ts H m c.reverse, p ∈ ts H m [] := by
    intro c
    induction c with
    | nil => intro p hp; simpa using hp
    | cons x c ih =>
      intro p hp
      rw [List.reverse_cons] at hp
      apply ih
      by_cases hb : c.reverse.length < 256
      · rcases len_cases (ub c.reverse m) with h | ⟨e, h⟩ | h
        · have : ub (c.reverse ++ [x]) m = [] := by rw [ub_snoc hb, h]; rfl
          unfold ts at hp
          rw [this] at hp
          unfold Spec.subtreeStrings at hp
          simp at hp
        · rw [ts_one h]
          by_cases hx : (Spec.bit e.1 c.reverse.length == x) = true
          · have : ub (c.reverse ++ [x]) m = [e] := by rw [ub_snoc hb, h]; simp [List.filter_cons]; simpa using hx
            rwa [ts_one this] at hp
          · have : ub (c.reverse ++ [x]) m = [] := by rw [ub_snoc hb, h]; simp [List.filter_cons]; simpa using hx
            unfold ts at hp
            rw [this] at hp
            unfold Spec.subtreeStrings at hp
            simp at hp
        · rw [ts_two hb h]
          cases x <;> simp [hp]
      · have h1 := ub_length_le_one hm (b := c.reverse ++ [x]) (by simp at hb ⊢; omega)
        rcases len_cases (ub (c.reverse ++ [x]) m) with h | ⟨e, h⟩ | h
        · unfold ts at hp
          rw [h] at hp
          unfold Spec.subtreeStrings at hp
          simp at hp
        · have h2 := ub_length_le_one hm (b := c.reverse) (by omega)
          have he : e ∈ ub (c.reverse ++ [x]) m := by rw [h]; simp
          have he' : e ∈ ub c.reverse m := by
            rw [mem_ub] at he ⊢
            exact ⟨he.1, (List.prefix_append _ _).trans he.2⟩
          have : ub c.reverse m = [e] := by
            rcases len_cases (ub c.reverse m) with h' | ⟨e', h'⟩ | h'
            · rw [h'] at he'; simp at he'
            · rw [h'] at he' ⊢; rw [List.mem_singleton.1 he']
            · omega
          rw [ts_one h] at hp
          rwa [ts_one this]
        · omega
  intro p hp
  have := key b.reverse
  rw [List.reverse_reverse] at this
  exact this p hp

/-- Nothing hashes to the placeholder. -/
def NP (H : Hasher) (m : List Entry) : Prop := ∀ b, ub b m ≠ [] → sh H m b ≠ placeholder

/-- The same below `b`. -/
def NPat (H : Hasher) (m : List Entry) (b : List Bool) : Prop := ∀ b', b <+: b' → ub b' m ≠ [] → sh H m b' ≠ placeholder

/-- The same to the left of `k`. -/
def NPleft (H : Hasher) (m : List Entry) (k : KeyHash) : Prop :=
  ∀ d, d < 256 → Spec.bit k d = true → NPat H m ((keyBits k).take d ++ [false])

theorem np_of' (hm : NodupE m) (h : ∀ p ∈ Spec.treeStrings H m, p.hash H ≠ placeholder) : NP H m := by
  intro b hb
  have ht : ts H m [] = Spec.treeStrings H m := by simp [ts, Spec.treeStrings]
  rw [← ht] at h
  rcases sh_cases hm H b with h1 | ⟨e, h1, h2, h3⟩ | ⟨h1, h2, h3, -⟩
  · exact absurd h1.1 hb
  · rw [h2]; exact h _ (ts_sub hm _ _ h3)
  · rw [h2]; exact h _ (ts_sub hm _ _ h3)

theorem np_of (hm : NodupE m) (h : Spec.NoCollision H (Spec.treeStrings H m)) : NP H m := np_of' hm h.notPlaceholder

theorem ofNat?_lt {s : Nat} (h : s < 16) : Nibble.ofNat? s = some ⟨s, h⟩ := by
  unfold Nibble.ofNat?; rw [dif_pos h]

/-- The hash of a range of complete children. -/
theorem leftSiblingImpl_spec {ch : Nibble → Option ChildInfo} {p : List Nibble} (hp : p.length < 64) :
    ∀ (h s : Nat), Rng h s → NPat H m (pathBits p ++ hb h s) → (∀ j : Nibble, s ≤ j.val → j.val < s + 2 ^ h → ch j = cinfo H m (p ++ [j])) →
    Restore.leftSiblingImpl H ch h s =
      .ok (sh H m (pathBits p ++ hb h s), decide ((ub (pathBits p ++ hb h s) m).length ≤ 1)) := by
  intro h
  induction h with
  | zero =>
    intro s r _ hc
    have hs := r.hs
    have h1 := hc ⟨s, hs⟩ (Nat.le_refl _) (by simp)
    have hbe : pathBits p ++ hb 0 s = pathBits (p ++ [⟨s, hs⟩]) := by
      rw [pathBits_append]
      congr 1
    rw [hbe]
    unfold Restore.leftSiblingImpl
    rw [ofNat?_lt hs]
    simp only []
    rw [h1]
    rcases len_cases (under (p ++ [⟨s, hs⟩]) m) with h2 | ⟨e, h2⟩ | h2
    · rw [cinfo_nil h2]
      have : ub (pathBits (p ++ [⟨s, hs⟩])) m = [] := h2
      rw [sh_zero H this, this]; rfl
    · rw [cinfo_one h2]
      have : ub (pathBits (p ++ [⟨s, hs⟩])) m = [e] := h2
      rw [sh_one H this, this]; rfl
    · rw [cinfo_two h2]
      have : 2 ≤ (ub (pathBits (p ++ [⟨s, hs⟩])) m).length := h2
      simp only []
      rw [decide_eq_false (by omega)]
  | succ h ih =>
    intro s r hnp hc
    have hnp1 : NPat H m (pathBits p ++ hb h s) := fun b hb' => hnp b (by
      rw [r.hb_left, ← List.append_assoc] at hb'; exact (List.prefix_append _ _).trans hb')
    have hnp2 : NPat H m (pathBits p ++ hb h (s + 2 ^ h)) := fun b hb' => hnp b (by
      rw [r.hb_right, ← List.append_assoc] at hb'; exact (List.prefix_append _ _).trans hb')
    have h2 : 2 ^ (h + 1) = 2 ^ h + 2 ^ h := by rw [Nat.pow_succ]; omega
    have hpos := Nat.two_pow_pos h
    unfold Restore.leftSiblingImpl
    rw [ih s r.left hnp1 (fun j a b => hc j a (by omega)), ok_bind,
      ih (s + 2 ^ h) r.right hnp2 (fun j a b => hc j (by omega) (by omega)), ok_bind]
    simp only []
    rw [r.hb_left, r.hb_right, ← List.append_assoc, ← List.append_assoc]
    have hlen : (pathBits p ++ hb (h + 1) s).length < 256 := by
      have := hb_length (h := h + 1) (s := s) r.hh
      simp [this]; omega
    generalize pathBits p ++ hb (h + 1) s = b at hlen hnp
    have hsp := ub_split_length hlen m
    have hpm := ub_split_perm hlen m
    have hph : ∀ x, sh H m (b ++ [x]) = placeholder ↔ ub (b ++ [x]) m = [] := fun x =>
      ⟨fun h => Decidable.byContradiction (fun hc => hnp _ (List.prefix_append _ _) hc h), fun h => sh_zero H h⟩
    rcases len_cases (ub (b ++ [false]) m) with hl | ⟨e, hl⟩ | hl
    · rw [hl, List.nil_append] at hpm
      rw [hl] at hsp
      rw [sh_perm H (b := b) (m := m) (m' := m) (List.Perm.refl _)]
      rcases Nat.lt_or_ge (ub (b ++ [true]) m).length 2 with hr | hr
      · rw [if_pos]
        · have hb1 : (ub b m).length ≤ 1 := by simp at hsp; omega
          rw [decide_eq_true hb1]
          congr 2
          rcases len_cases (ub (b ++ [true]) m) with hr' | ⟨e, hr'⟩ | hr'
          · rw [sh_zero H hr', sh_zero H]
            rw [hr'] at hpm; exact hpm.nil_eq.symm
          · rw [sh_one H hr', sh_one H]
            rw [hr'] at hpm; exact List.perm_singleton.1 hpm.symm
          · omega
        · rw [Bool.and_eq_true]
          exact ⟨by simp [(hph false).2 hl], by simpa using (by omega : (ub (b ++ [true]) m).length ≤ 1)⟩
      · have hb2 : 2 ≤ (ub b m).length := by simp at hsp; omega
        rw [if_neg, if_neg]
        · rw [decide_eq_false (by omega), sh_two H hlen hb2]
        · rw [Bool.and_eq_true]
          rintro ⟨-, h⟩
          have := (hph true).1 (by simpa using h)
          rw [this] at hr; simp at hr
        · rw [Bool.and_eq_true]
          rintro ⟨-, h⟩
          have := of_decide_eq_true h
          omega
    · have hne : sh H m (b ++ [false]) ≠ placeholder := fun h => by
        have := (hph false).1 h
        rw [this] at hl; simp at hl
      rw [hl] at hsp
      rcases len_cases (ub (b ++ [true]) m) with hr | hr
      · rw [if_neg (by rw [Bool.and_eq_true]; rintro ⟨h, -⟩; exact hne (by simpa using h)),
          if_pos (by rw [Bool.and_eq_true]; exact ⟨by rw [hl]; rfl, by simp [(hph true).2 hr]⟩)]
        rw [hr, hl] at hpm
        rw [sh_one H hl, sh_one H (List.perm_singleton.1 hpm.symm)]
        rw [hr] at hsp
        rw [decide_eq_true (by simp at hsp; omega)]
      · have hr1 : ub (b ++ [true]) m ≠ [] := by
          intro h; rcases hr with ⟨e, hr⟩ | hr
          · rw [h] at hr; simp at hr
          · rw [h] at hr; simp at hr
        have hb2 : 2 ≤ (ub b m).length := by
          have := List.length_pos_iff.2 hr1
          simp at hsp; omega
        rw [if_neg (by rw [Bool.and_eq_true]; rintro ⟨h, -⟩; exact hne (by simpa using h)),
          if_neg (by rw [Bool.and_eq_true]; rintro ⟨-, h⟩; exact hr1 ((hph true).1 (by simpa using h))),
          decide_eq_false (by omega), sh_two H hlen hb2]
    · have hne : sh H m (b ++ [false]) ≠ placeholder := fun h => by
        have := (hph false).1 h
        rw [this] at hl; simp at hl
      have hb2 : 2 ≤ (ub b m).length := by omega
      rw [if_neg (by rw [Bool.and_eq_true]; rintro ⟨h, -⟩; exact hne (by simpa using h)),
        if_neg (by rw [Bool.and_eq_true]; rintro ⟨h, -⟩; have := of_decide_eq_true h; omega),
        decide_eq_false (by omega), sh_two H hlen hb2]

theorem hb_sub (t : Nat) (ht : t ≤ 4) (i : Nibble) : hb (4 - t) i.val = (nibbleBits i).take t := by
  unfold hb
  rw [show 4 - (4 - t) = t by omega]
  rfl

theorem keyBits_take_nib {i t : Nat} (hi : i < 64) (ht : t ≤ 4) :
    (keyBits k).take (4 * i + t) = pathBits (k.nibbles.take i) ++ hb (4 - t) (nib k i).val := by
  have h1 := keyBits_take4 k (n := i + 1) (by omega)
  rw [take_succ_nib hi, pathBits_append] at h1
  have h2 := congrArg (List.take (4 * i + t)) h1
  rw [List.take_take, Nat.min_eq_left (by omega)] at h2
  rw [h2, List.take_append]
  have hl : (pathBits (k.nibbles.take i)).length = 4 * i := by rw [pathBits_length, take_length_nib (by omega)]
  rw [List.take_of_length_le (by omega), hl, show 4 * i + t - 4 * i = t by omega, hb_sub t ht]
  simp [pathBits]

theorem bit_nib {i t : Nat} (hi : i < 64) (ht : t < 4) : Spec.bit k (4 * i + t) = (nib k i).val.testBit (3 - t) := by
  have h1 := keyBits_take_nib (k := k) (t := t + 1) hi (by omega)
  have h2 := congrArg (fun l => l[4 * i + t]?) h1
  rw [List.getElem?_take_of_lt (by omega), keyBits_getElem? k _ (by omega)] at h2
  have hl : (pathBits (k.nibbles.take i)).length = 4 * i := by rw [pathBits_length, take_length_nib (by omega)]
  rw [List.getElem?_append_right (by omega), hl, show 4 * i + t - 4 * i = t by omega, hb_sub (t + 1) (by omega),
    List.getElem?_take_of_lt (by omega)] at h2
  unfold nibbleBits at h2
  match t, ht with
  | 0, _ => simpa using h2
  | 1, _ => simpa using h2
  | 2, _ => simpa using h2
  | 3, _ => simpa using h2

theorem half_left : ∀ h : Fin 4, ∀ i : Fin 16, i.val.testBit h.val = true →
    (childAndSiblingHalfStart i h.val).2 + 2 ^ h.val ≤ i.val := by decide +kernel

/-- The left sibling at a 1 bit of the last key. -/
theorem leftSiblingAt_spec (hnp : NPleft H m k) {r : Restore} (hp : Part H r m w k n)
    (h1 : (under (k.nibbles.take (n + 1)) m).length ≤ 1) (hmem : (k, vh) ∈ m) {d : Nat} (hd : d < 256) (hbit : Spec.bit k d = true) :
    Restore.leftSiblingAt H r k d = .ok (csib H m k d) := by
  have hn := hp.lt
  unfold Restore.leftSiblingAt csib
  rw [hp.length, hbit]
  by_cases hdn : (n + 1) * 4 ≤ d
  · rw [if_pos hdn, sh_zero H]
    rw [List.eq_nil_iff_forall_not_mem]
    intro e he
    rw [mem_ub] at he
    have e1 : e ∈ under (k.nibbles.take (n + 1)) m := by
      unfold under
      rw [mem_ub, ← keyBits_take4 k (by omega)]
      refine ⟨he.1, ?_⟩
      have : (keyBits k).take (4 * (n + 1)) <+: (keyBits k).take d := by
        rw [show (keyBits k).take (4 * (n + 1)) = ((keyBits k).take d).take (4 * (n + 1)) by
          rw [List.take_take, Nat.min_eq_left (by omega)]]
        exact List.take_prefix _ _
      exact (this.trans (List.prefix_append _ _)).trans he.2
    have e2 := mem_under_take hmem (n + 1)
    have : e = (k, vh) := by
      rcases len_cases (under (k.nibbles.take (n + 1)) m) with h | ⟨a, h⟩ | h
      · rw [h] at e2; simp at e2
      · rw [h] at e1 e2; rw [List.mem_singleton.1 e1, List.mem_singleton.1 e2]
      · omega
    rw [this] at he
    have h2 := (prefix_keyBits_snoc (by simp; omega)).1 he.2
    rw [List.length_take, keyBits_length, Nat.min_eq_left (by omega)] at h2
    rw [hbit] at h2
    simp at h2
  · rw [if_neg hdn]
    have hi : d / 4 < 64 := by omega
    have ht : d % 4 < 4 := Nat.mod_lt _ (by decide)
    have hde : d = 4 * (d / 4) + d % 4 := by omega
    obtain ⟨info, hinfo, hch⟩ : ∃ info, r.partialNodes[d / 4]? = some info ∧
        ∀ j, j ≠ nib k (d / 4) → info.children j = cinfo H m (k.nibbles.take (d / 4) ++ [j]) := by
      rw [hp.nodes]
      by_cases he : d / 4 = n
      · refine ⟨fullInfo H m w (k.nibbles.take n), ?_, fun j _ => by rw [he]; rfl⟩
        rw [List.getElem?_append_right (by rw [openPath_length]; omega), openPath_length, he]
        simp
      · refine ⟨openInfo H m w k (d / 4), ?_, fun j hj => by simp [openInfo, hj]⟩
        rw [List.getElem?_append_left (by rw [openPath_length]; omega)]
        unfold openPath
        rw [List.getElem?_map, List.getElem?_range (by omega)]
        rfl
    rw [hinfo]
    simp only []
    rw [nibbleAt_ok hi, ok_bind]
    unfold Restore.computeLeftSibling
    have hbn := bit_nib (k := k) hi ht
    rw [← hde, hbit] at hbn
    obtain ⟨-, -, f3, f4, -, f6, -⟩ := half_facts ⟨3 - d % 4, by omega⟩ (nib k (d / 4))
    have hlf := half_left ⟨3 - d % 4, by omega⟩ (nib k (d / 4)) hbn.symm
    simp only at f3 f4 f6 hlf
    have hnp' := hnp d hd hbit
    have hpb := keyBits_take_nib (k := k) (i := d / 4) (t := d % 4) hi (by omega)
    rw [← hde] at hpb
    have hbe : (keyBits k).take d ++ [false] =
        pathBits (k.nibbles.take (d / 4)) ++ hb (3 - d % 4) (childAndSiblingHalfStart (nib k (d / 4)) (3 - d % 4)).2 := by
      rw [f6, ← hbn, hpb, List.append_assoc, show 3 - d % 4 + 1 = 4 - d % 4 by omega]
      rfl
    rw [hbe] at hnp'
    rw [leftSiblingImpl_spec (p := k.nibbles.take (d / 4)) (by rw [take_length_nib (by omega)]; exact hi) _ _
      ⟨by omega, f3, f4⟩ hnp', ok_bind]
    · simp only []
      rw [← hbe]
      rfl
    · intro j a b
      apply hch
      intro hj
      rw [hj] at b
      omega

/-- The number of zero bits among the first `n`. -/
def zeros (k : KeyHash) : Nat → Nat
  | 0 => 0
  | n + 1 => zeros k n + (if Spec.bit k n = true then 0 else 1)

theorem leftHashes_zeros (n : Nat) : (Spec.leftHashes H m k n).length + zeros k n = n := by
  induction n with
  | zero => rfl
  | succ n ih =>
    rw [leftHashes_succ, List.length_append]
    unfold zeros
    split <;> simp <;> omega

theorem zeros_mono {a b : Nat} (h : a ≤ b) : zeros k a ≤ zeros k b ∧ zeros k b ≤ zeros k a + (b - a) := by
  obtain ⟨d, rfl⟩ := Nat.exists_eq_add_of_le h
  induction d with
  | zero => simp
  | succ d ih =>
    have := ih (by omega)
    rw [← Nat.add_assoc]
    simp only [zeros]
    split <;> omega

theorem pick_range_length (f : Nat → Digest) (n : Nat) : (pick k false 0 ((List.range n).map f)).length = zeros k n := by
  induction n with
  | zero => rfl
  | succ n ih =>
    rw [List.range_succ, List.map_append, List.map_singleton, pick_snoc, List.length_append, ih]
    simp only [List.length_map, List.length_range, Nat.zero_add, zeros]
    cases Spec.bit k n <;> simp <;> omega

theorem collectLeft_spec (hnp : NPleft H m k) {r : Restore} (hp : Part H r m w k n)
    (h1 : (under (k.nibbles.take (n + 1)) m).length ≤ 1) (hmem : (k, vh) ∈ m) :
    ∀ (bits : List Bool) (i : Nat) (ls : List Digest) (z : Nat), bits = (keyBits k).drop i →
    Restore.collectLeft H r k i bits ls z =
      .ok (pick k true i ((List.range' i bits.length).map (csib H m k)) ++ ls,
        z + (pick k false i ((List.range' i bits.length).map (csib H m k))).length) := by
  intro bits
  induction bits with
  | nil => intro i ls z _; simp [Restore.collectLeft, pick]
  | cons b bits ih =>
    intro i ls z hb
    have hi : i < (keyBits k).length := by
      apply Decidable.byContradiction
      intro hc
      rw [List.drop_of_length_le (by omega)] at hb
      simp at hb
    rw [List.drop_eq_getElem_cons hi, List.cons.injEq] at hb
    have hi' : i < 256 := by simpa using hi
    have hbe : b = Spec.bit k i := by
      have := keyBits_getElem? k i hi'
      rw [List.getElem?_eq_getElem hi] at this
      rw [hb.1]; exact Option.some.inj this
    rw [List.length_cons, csibs_cons]
    simp only [pick]
    cases b with
    | true =>
      unfold Restore.collectLeft
      rw [leftSiblingAt_spec hnp hp h1 hmem hi' hbe.symm, ok_bind, ih _ _ _ hb.2, ← hbe]
      simp
    | false =>
      unfold Restore.collectLeft
      rw [ih _ _ _ hb.2, ← hbe]
      simp
      omega

theorem collectLeft_all (hnp : NPleft H m k) {r : Restore} (hp : Part H r m w k n)
    (h1 : (under (k.nibbles.take (n + 1)) m).length ≤ 1) (hmem : (k, vh) ∈ m) :
    Restore.collectLeft H r k 0 (Bytes32.iterBits k) [] 0 = .ok (Spec.leftHashes H m k 256, zeros k 256) := by
  rw [iterBits_eq, collectLeft_spec hnp hp h1 hmem _ _ _ _ (by rw [List.drop_zero]), keyBits_length, ← List.range_eq_range',
    List.append_nil, Nat.zero_add, pick_csibs (Nat.le_refl _), pick_range_length]

/-- Where the removal of superfluous placeholders stops. -/
structure Trimmed (H : Hasher) (m : List Entry) (k : KeyHash) (R N D : Nat) : Prop where
  le : D ≤ N
  zeros : R ≤ zeros k D
  gone : ∀ d, D ≤ d → d < N → Spec.bit k d = true → csib H m k d = placeholder
  stop : D = 0 ∨ (∃ d, D = d + 1 ∧ Spec.bit k d = true ∧ csib H m k d ≠ placeholder) ∨
    (∃ d, D = d + 1 ∧ Spec.bit k d = false ∧ R = Jmt.zeros k D)

theorem trimLeft_spec {R : Nat} : ∀ (N : Nat), N ≤ 256 → R ≤ zeros k N →
    ∃ D, Restore.trimLeft R (bitsUp k N) (Spec.leftHashes H m k N) (zeros k N) = .ok (Spec.leftHashes H m k D) ∧
      Trimmed H m k R N D := by
  intro N
  induction N with
  | zero =>
    intro _ hz
    exact ⟨0, rfl, Nat.le_refl _, hz, fun d h1 h2 => by omega, .inl rfl⟩
  | succ N ih =>
    intro hN hz
    have hcs : Spec.bit k N = true → Spec.leftHash H m k N = csib H m k N := leftHash_eq (by omega)
    rw [bitsUp_succ]
    have stop : ∀ (h : (Spec.bit k N = true ∧ csib H m k N ≠ placeholder) ∨ (Spec.bit k N = false ∧ R = zeros k (N + 1))),
        Trimmed H m k R (N + 1) (N + 1) := fun h =>
      ⟨Nat.le_refl _, hz, fun d h1 h2 => by omega, .inr (h.imp (fun h => ⟨N, rfl, h⟩) (fun h => ⟨N, rfl, h⟩))⟩
    cases hb : Spec.bit k N with
    | true =>
      rw [leftHashes_succ, if_pos hb, List.singleton_append, hcs hb]
      unfold Restore.trimLeft
      simp only []
      have hze : zeros k (N + 1) = zeros k N := by simp [zeros, hb]
      by_cases hph : csib H m k N = placeholder
      · rw [if_pos hph]
        obtain ⟨D, h1, h2⟩ := ih (by omega) (by omega)
        rw [hze]
        refine ⟨D, h1, Nat.le_succ_of_le h2.le, h2.zeros, fun d h3 h4 h5 => ?_, h2.stop⟩
        by_cases hd : d = N
        · rw [hd]; exact hph
        · exact h2.gone d h3 (by omega) h5
      · rw [if_neg hph]
        refine ⟨N + 1, ?_, stop (.inl ⟨hb, hph⟩)⟩
        rw [leftHashes_succ, if_pos hb, List.singleton_append, hcs hb]
    | false =>
      have hl : Spec.leftHashes H m k (N + 1) = Spec.leftHashes H m k N := by
        rw [leftHashes_succ, if_neg (by simp [hb]), List.nil_append]
      have hze : zeros k (N + 1) = zeros k N + 1 := by simp [zeros, hb]
      rw [hl]
      unfold Restore.trimLeft
      by_cases hR : R < zeros k (N + 1)
      · rw [if_pos hR]
        obtain ⟨D, h1, h2⟩ := ih (by omega) (by omega)
        rw [hze, Nat.add_sub_cancel]
        refine ⟨D, h1, Nat.le_succ_of_le h2.le, h2.zeros, fun d h3 h4 h5 => ?_, h2.stop⟩
        by_cases hd : d = N
        · rw [hd, hb] at h5; simp at h5
        · exact h2.gone d h3 (by omega) h5
      · rw [if_neg hR]
        exact ⟨N + 1, by rw [hl], stop (.inr ⟨hb, by omega⟩)⟩

/-- The entries up to `k`. -/
def upto (M : List Entry) (k : KeyHash) : List Entry := M.filter (fun e => !decide (k.val < e.1.val))

theorem mem_upto {M : List Entry} {e : Entry} : e ∈ upto M k ↔ e ∈ M ∧ ¬ k.val < e.1.val := by
  unfold upto; rw [List.mem_filter]; simp

theorem upto_left (M : List Entry) {d : Nat} (hd : d < 256) (hb : Spec.bit k d = true) :
    ub ((keyBits k).take d ++ [false]) (upto M k) = ub ((keyBits k).take d ++ [false]) M := by
  rw [← leftEntries_eq hd, ← leftEntries_eq hd]
  exact leftEntries_filter hd hb _ (fun e _ h => by
    simp only [Bool.not_eq_true', decide_eq_false_iff_not]
    exact fun hc => List.lt_irrefl _ (List.lt_trans h hc))

theorem csib_upto (M : List Entry) {d : Nat} (hd : d < 256) (hb : Spec.bit k d = true) :
    csib H (upto M k) k d = csib H M k d := by
  unfold csib
  rw [hb]
  exact sh_congr (upto_left M hd hb)

theorem npleft_upto {M : List Entry} (h : NP H M) : NPleft H (upto M k) k := by
  intro d hd hb b' hpre hne
  have h1 := ub_congr_ext (upto_left M hd hb) hpre
  rw [sh_congr h1]
  exact h b' (by rwa [← h1])

/-- The number of right siblings in the proof of `k`. -/
theorem rightSiblingsOf_length {M : List Entry} :
    (rightSiblingsOf (specProof H M k).siblings k).length = zeros k (specProof H M k).siblings.length := by
  have hlen := specProof_len H M k
  rw [rightSiblingsOf_eq k _ hlen]
  have : ∀ {α : Type} (S : List α), (pick k false 0 S).length = zeros k S.length := by
    intro α S
    have h1 : (pick k false 0 S).length = (pick k false 0 (S.map (fun _ => placeholder))).length := by
      rw [pick_map, List.length_map]
    have h2 : S.map (fun _ => placeholder) = (List.range S.length).map (fun _ => placeholder) := by
      apply List.ext_getElem <;> simp
    rw [h1, h2, pick_range_length]
  rw [this, List.length_reverse]

/-- Where the canonical walk ends there is only the key itself, and one step above there is more. -/
theorem specProof_depth {M : List Entry} (hM : NodupE M) (hmem : (k, vh) ∈ M) :
    ub ((keyBits k).take (specProof H M k).siblings.length) M = [(k, vh)] ∧
    ∀ d, (specProof H M k).siblings.length = d + 1 → 2 ≤ (ub ((keyBits k).take d) M).length := by
  have key : ∀ (xs b : List Bool), b ++ xs = keyBits k →
      (walk H M b xs).2 = (keyBits k).take (b.length + (walk H M b xs).1.length) ∧
      ∀ d, (walk H M b xs).1.length = d + 1 → 2 ≤ (ub ((keyBits k).take (b.length + d)) M).length := by
    intro xs
    induction xs with
    | nil =>
      intro b hb
      refine ⟨?_, fun d h => by simp [walk] at h⟩
      simp only [walk, List.length_nil, Nat.add_zero]
      rw [← hb]; simp
    | cons x xs ih =>
      intro b hb
      have hbt : (keyBits k).take b.length = b := by rw [← hb]; simp
      by_cases h : (ub b M).length ≤ 1
      · rw [walk_stop h]
        exact ⟨by simp [hbt], fun d h => by simp at h⟩
      · rw [walk_step (by omega)]
        obtain ⟨h1, h2⟩ := ih (b ++ [x]) (by simpa using hb)
        rw [List.length_append, List.length_singleton] at h1 h2
        refine ⟨?_, fun d hd => ?_⟩
        · simp only [List.length_cons]
          rw [h1]
          congr 1; omega
        · simp only [List.length_cons] at hd
          cases d with
          | zero => rw [Nat.add_zero, hbt]; omega
          | succ d =>
            have := h2 d (by omega)
            rwa [show b.length + 1 + d = b.length + (d + 1) by omega] at this
  obtain ⟨h1, h2⟩ := key (keyBits k) [] rfl
  have hl : (specProof H M k).siblings.length = (walk H M [] (keyBits k)).1.length := by simp [specProof]
  have h3 := specProof_leaf_ub (H := H) hM k
  rw [(specProof_leaf_iff hM k vh).2 hmem] at h3
  rw [hl]
  simp only [List.length_nil, Nat.zero_add] at h1 h2
  exact ⟨by rw [← h1]; exact h3, h2⟩

/-- The sibling of a path that ends at this level is not empty, and below it there is nothing. -/
theorem sib_facts {M : List Entry} (hM : NodupE M) (hmem : (k, vh) ∈ M) {d : Nat} (hd : d < 256) :
    ((specProof H M k).siblings.length = d + 1 → ub ((keyBits k).take d ++ [!Spec.bit k d]) M ≠ []) ∧
    ((specProof H M k).siblings.length ≤ d → ub ((keyBits k).take d ++ [!Spec.bit k d]) M = []) := by
  obtain ⟨h1, h2⟩ := specProof_depth (H := H) hM hmem
  have hl : ((keyBits k).take d).length = d := by simp; omega
  have hsp := ub_split_length (b := (keyBits k).take d) (by omega) M
  have hk : (keyBits k).take (d + 1) = (keyBits k).take d ++ [Spec.bit k d] := by
    rw [keyBits_take k (by omega), keyBits_take k (by omega), List.range_succ, List.map_append]; rfl
  constructor
  · intro h
    have h3 := h2 d h
    rw [h, hk] at h1
    intro hc
    cases hb : Spec.bit k d <;> rw [hb] at h1 hc <;> simp only [Bool.not_false, Bool.not_true] at hc <;>
      rw [h1, hc] at hsp <;> simp at hsp <;> omega
  · intro h
    rw [List.eq_nil_iff_forall_not_mem]
    intro e he
    rw [mem_ub] at he
    have : e ∈ ub ((keyBits k).take (specProof H M k).siblings.length) M := by
      rw [mem_ub]
      refine ⟨he.1, (List.IsPrefix.trans ?_ (List.prefix_append _ _)).trans he.2⟩
      rw [show (keyBits k).take (specProof H M k).siblings.length = ((keyBits k).take d).take (specProof H M k).siblings.length by
        rw [List.take_take, Nat.min_eq_left h]]
      exact List.take_prefix _ _
    rw [h1, List.mem_singleton] at this
    rw [this] at he
    have := ((prefix_keyBits_snoc (by omega)).1 he.2).2
    rw [hl] at this
    simp at this

/-- The check accepts an honest proof when everything up to the last key has been received. -/
theorem check_complete {M : List Entry} (hM : NodupE M) (hnp : NP H M) (hmem : (k, vh) ∈ M) {r : Restore}
    (hp : Part H r (upto M k) w k n) (hr : RReady (upto M k) k vh n) (hl : r.previousLeaf = some ⟨k, vh⟩)
    (hroot : r.expectedRoot = sh H M []) (checked : Bool) :
    r.verify H checked ⟨rightSiblingsOf (specProof H M k).siblings k⟩ = .ok () := by
  have hmem' : (k, vh) ∈ upto M k := mem_upto.2 ⟨hmem, List.lt_irrefl _⟩
  have hlen := specProof_len H M k
  have hR := rightSiblingsOf_length (H := H) (M := M) (k := k)
  unfold Restore.verify
  rw [hl]
  simp only []
  rw [collectLeft_all (npleft_upto hnp) hp (by rw [hr.leaf]; exact Nat.le_refl _) hmem', ok_bind]
  simp only []
  have hle : zeros k (specProof H M k).siblings.length ≤ zeros k 256 := (zeros_mono hlen).1
  rw [if_neg (by rw [hR]; omega), hR]
  have hrev : (Bytes32.iterBits k).reverse = bitsUp k 256 := by
    have := bitsUp_eq k (Nat.le_refl 256)
    simpa using this
  rw [hrev]
  obtain ⟨D, h1, h2⟩ := trimLeft_spec (H := H) (m := upto M k) (k := k) 256 (Nat.le_refl _) hle
  rw [h1, ok_bind, hroot]
  have hD : D = (specProof H M k).siblings.length := by
    apply Nat.le_antisymm
    · apply Decidable.byContradiction
      intro hc
      rcases h2.stop with h | ⟨d, hd, hb, hne⟩ | ⟨d, hd, hb, hz⟩
      · omega
      · have hd256 : d < 256 := by have := h2.le; omega
        apply hne
        rw [csib_upto M hd256 hb]
        exact sh_zero H ((sib_facts (H := H) hM hmem hd256).2 (by omega))
      · rw [hd] at hz hc
        have hz' : zeros k (d + 1) = zeros k d + 1 := by simp [zeros, hb]
        have := (zeros_mono (k := k) (show (specProof H M k).siblings.length ≤ d by omega)).1
        omega
    · apply Decidable.byContradiction
      intro hc
      obtain ⟨d, hd⟩ : ∃ d, (specProof H M k).siblings.length = d + 1 :=
        ⟨(specProof H M k).siblings.length - 1, by omega⟩
      have hd256 : d < 256 := by omega
      have hz := h2.zeros
      rw [hd] at hz hc
      have hzm := (zeros_mono (k := k) (show D ≤ d by omega)).1
      have hb : Spec.bit k d = true := by
        cases hb : Spec.bit k d with
        | true => rfl
        | false =>
          have : zeros k (d + 1) = zeros k d + 1 := by simp [zeros, hb]
          omega
      have h3 := h2.gone d (by omega) hd256 hb
      rw [csib_upto M hd256 hb] at h3
      exact hnp _ ((sib_facts hM hmem hd256).1 hd) h3
  rw [hD, show Spec.leftHashes H (upto M k) k (specProof H M k).siblings.length =
    Spec.leftHashes H M k (specProof H M k).siblings.length from
    leftHashes_filter _ (fun e _ h => by
      simp only [Bool.not_eq_true', decide_eq_false_iff_not]
      exact fun hc => List.lt_irrefl _ (List.lt_trans h hc)) hlen]
  exact range_complete hM hmem checked

theorem ts_left {d : Nat} (hd : d < 256) (hb : Spec.bit k d = true) {p : Spec.Preimage}
    (hp : p ∈ ts H m ((keyBits k).take d ++ [false])) : p ∈ Spec.leftStrings H m k := by
  unfold Spec.leftStrings
  rw [List.mem_flatMap]
  refine ⟨d, List.mem_filter.2 ⟨List.mem_range.2 hd, hb⟩, ?_⟩
  rw [leftEntries_eq hd]
  unfold ts at hp
  have hl : ((keyBits k).take d ++ [false]).length = d + 1 := by simp; omega
  rwa [hl] at hp

theorem ts_down (hm : NodupE m) {b b' : List Bool} (h : b <+: b') {p : Spec.Preimage} (hp : p ∈ ts H m b') : p ∈ ts H m b := by
  obtain ⟨c, rfl⟩ := h
  have key : ∀ c : List Bool, ∀ p ∈ ts H m (b ++ c.reverse), p ∈ ts H m b := by
    intro c
    induction c with
    | nil => intro p hp; simpa using hp
    | cons x c ih =>
      intro p hp
      rw [List.reverse_cons, ← List.append_assoc] at hp
      apply ih
      generalize b ++ c.reverse = b at hp
      by_cases hb : b.length < 256
      · rcases len_cases (ub b m) with h | ⟨e, h⟩ | h
        · have : ub (b ++ [x]) m = [] := by rw [ub_snoc hb, h]; rfl
          unfold ts at hp
          rw [this] at hp
          unfold Spec.subtreeStrings at hp
          simp at hp
        · rw [ts_one h]
          by_cases hx : (Spec.bit e.1 b.length == x) = true
          · have : ub (b ++ [x]) m = [e] := by rw [ub_snoc hb, h]; simp [List.filter_cons]; simpa using hx
            rwa [ts_one this] at hp
          · have : ub (b ++ [x]) m = [] := by rw [ub_snoc hb, h]; simp [List.filter_cons]; simpa using hx
            unfold ts at hp
            rw [this] at hp
            unfold Spec.subtreeStrings at hp
            simp at hp
        · rw [ts_two hb h]
          cases x <;> simp [hp]
      · have h1 := ub_length_le_one hm (b := b ++ [x]) (by simp at hb ⊢; omega)
        rcases len_cases (ub (b ++ [x]) m) with h | ⟨e, h⟩ | h
        · unfold ts at hp
          rw [h] at hp
          unfold Spec.subtreeStrings at hp
          simp at hp
        · have h2 := ub_length_le_one hm (b := b) (by omega)
          have he : e ∈ ub (b ++ [x]) m := by rw [h]; simp
          have he' : e ∈ ub b m := by
            rw [mem_ub] at he ⊢
            exact ⟨he.1, (List.prefix_append _ _).trans he.2⟩
          have : ub b m = [e] := by
            rcases len_cases (ub b m) with h' | ⟨e', h'⟩ | h'
            · rw [h'] at he'; simp at he'
            · rw [h'] at he' ⊢; rw [List.mem_singleton.1 he']
            · omega
          rw [ts_one h] at hp
          rwa [ts_one this]
        · omega
  have := key c.reverse
  rw [List.reverse_reverse] at this
  exact this p hp

theorem npleft_of (hm : NodupE m) (h : ∀ p ∈ Spec.leftStrings H m k, p.hash H ≠ placeholder) : NPleft H m k := by
  intro d hd hb b' hpre hne
  rcases sh_cases hm H b' with h1 | ⟨e, h1, h2, h3⟩ | ⟨h1, h2, h3, -⟩
  · exact absurd h1.1 hne
  · rw [h2]; exact h _ (ts_left hd hb (ts_down hm hpre h3))
  · rw [h2]; exact h _ (ts_left hd hb (ts_down hm hpre h3))

/-- A smaller key is in a subtree on the left. -/
theorem left_of_lt {k' : KeyHash} (h : k'.val < k.val) :
    ∃ d, d < 256 ∧ Spec.bit k d = true ∧ (keyBits k).take d ++ [false] <+: keyBits k' := by
  have hne : keyBits k' < keyBits k := keyBits_lt.2 h
  have key : ∀ (a b : List Bool), a < b → a.length = b.length →
      ∃ d, d < b.length ∧ b[d]? = some true ∧ b.take d ++ [false] <+: a := by
    intro a
    induction a with
    | nil =>
      intro b h1 h2
      have := List.length_eq_zero_iff.1 h2.symm
      subst this
      simp at h1
    | cons x a ih =>
      intro b h1 h2
      match b, h1, h2 with
      | y :: b, h1, h2 =>
        rw [List.cons_lt_cons_iff] at h1
        rcases h1 with h1 | ⟨h1, h3⟩
        · have : x = false ∧ y = true := by
            revert h1; cases x <;> cases y <;> decide
          obtain ⟨rfl, rfl⟩ := this
          exact ⟨0, by simp, rfl, by simp⟩
        · subst h1
          obtain ⟨d, h4, h5, h6⟩ := ih b h3 (by simpa using h2)
          refine ⟨d + 1, by simpa using h4, by simpa using h5, ?_⟩
          rw [List.take_succ_cons, List.cons_append]
          exact (List.cons_prefix_cons).2 ⟨rfl, h6⟩
  obtain ⟨d, h1, h2, h3⟩ := key _ _ hne (by simp)
  have hd : d < 256 := by simpa using h1
  rw [keyBits_getElem? k d hd] at h2
  exact ⟨d, hd, Option.some.inj h2, h3⟩

theorem lt_of_left {d : Nat} (hd : d < 256) (hb : Spec.bit k d = true) {e : Entry}
    (he : e ∈ ub ((keyBits k).take d ++ [false]) m) : e.1.val < k.val := by
  rw [← leftEntries_eq hd] at he
  exact left_lt hd hb he

theorem leftHashes_eq_inv {M : List Entry} : ∀ {D : Nat}, D ≤ 256 → Spec.leftHashes H m k D = Spec.leftHashes H M k D →
    ∀ d, d < D → Spec.bit k d = true → csib H m k d = csib H M k d := by
  intro D
  induction D with
  | zero => intro _ _ d hd; omega
  | succ D ih =>
    intro hD h d hd hb
    rw [leftHashes_succ, leftHashes_succ] at h
    by_cases hbD : Spec.bit k D = true
    · rw [if_pos hbD, if_pos hbD, List.singleton_append, List.singleton_append, List.cons.injEq] at h
      by_cases he : d = D
      · rw [he, ← leftHash_eq (by omega) hbD, ← leftHash_eq (by omega) hbD]; exact h.1
      · exact ih (by omega) h.2 d (by omega) hb
    · rw [if_neg hbD, if_neg hbD, List.nil_append, List.nil_append] at h
      by_cases he : d = D
      · rw [he] at hb; exact absurd hb hbD
      · exact ih (by omega) h d (by omega) hb

/-- If the check accepts, then exactly the entries up to the last key have been received. -/
theorem check_sound {M : List Entry} (hm : NodupE m) (hM : NodupE M) (hk : MaxKey m k) (hmem : (k, vh) ∈ m) {r : Restore}
    (hp : Part H r m w k n) (hr : RReady m k vh n) (hl : r.previousLeaf = some ⟨k, vh⟩)
    (hroot : r.expectedRoot = sh H M []) {checked : Bool} {P : RangeProof}
    (hnc : Spec.NoCollision H (Spec.treeStrings H M ++ Spec.checkStrings H m (k, vh) P.rightSiblings))
    (hv : r.verify H checked P = .ok ()) : ∀ e, e ∈ m ↔ e ∈ upto M k := by
  have hnpl : NPleft H m k := npleft_of hm (fun p hp => hnc.notPlaceholder p (by
    unfold Spec.checkStrings; simp [hp]))
  unfold Restore.verify at hv
  rw [hl] at hv
  simp only [] at hv
  rw [collectLeft_all hnpl hp (by rw [hr.leaf]; exact Nat.le_refl _) hmem, ok_bind] at hv
  simp only [] at hv
  by_cases hR : zeros k 256 < P.rightSiblings.length
  · rw [if_pos hR] at hv; cases hv
  rw [if_neg hR] at hv
  have hrev : (Bytes32.iterBits k).reverse = bitsUp k 256 := by
    have := bitsUp_eq k (Nat.le_refl 256)
    simpa using this
  rw [hrev] at hv
  obtain ⟨D, h1, h2⟩ := trimLeft_spec (H := H) (m := m) (k := k) (R := P.rightSiblings.length) 256 (Nat.le_refl _) (by omega)
  rw [h1, ok_bind, hroot] at hv
  have hz := leftHashes_zeros (H := H) (m := m) (k := k) D
  have hDle := h2.le
  have hRz := h2.zeros
  have hlen : (Spec.leftHashes H m k D).length + P.rightSiblings.length ≤ 256 := by omega
  obtain ⟨s1, s2⟩ := range_sound (H := H) hM hv (by omega) (NoCollision.sub hnc (by
    intro p hp
    rw [List.mem_append] at hp ⊢
    rcases hp with hp | hp
    · exact .inl hp
    · right
      unfold Spec.checkStrings
      rw [List.mem_append, List.mem_flatMap]
      exact .inr ⟨D, List.mem_range.2 (by omega), hp⟩))
  obtain ⟨s3, s4⟩ := s2 hlen
  generalize hN : (Spec.leftHashes H m k D).length + P.rightSiblings.length = N at *
  have hzN := leftHashes_zeros (H := H) (m := M) (k := k) N
  rw [← s3] at hzN
  have hND : N = D := by
    apply Nat.le_antisymm (by omega)
    apply Decidable.byContradiction
    intro hc
    rcases h2.stop with h | ⟨d, hd, hb, hne⟩ | ⟨d, hd, hb, hzd⟩
    · omega
    · have h3 : zeros k (d + 1) = zeros k d := by simp [zeros, hb]
      have h4 := (zeros_mono (k := k) (show N ≤ d by omega)).2
      have h5 := (zeros_mono (k := k) (show N ≤ d by omega)).1
      rw [hd] at hz hzN
      omega
    · omega
  rw [hND] at s3 s4
  -- all left subtrees agree
  have hsub : ∀ d, d < 256 → Spec.bit k d = true →
      (ub ((keyBits k).take d ++ [false]) m).Perm (ub ((keyBits k).take d ++ [false]) M) := by
    intro d hd hb
    by_cases hdD : d < D
    · have h3 := leftHashes_eq_inv hDle s3 d hdD hb
      unfold csib at h3
      rw [hb] at h3
      refine sh_binds hm hM _ _ rfl h3 (NoCollision.sub hnc ?_)
      intro p hp
      rw [List.mem_append] at hp ⊢
      rcases hp with hp | hp
      · right
        unfold Spec.checkStrings
        rw [List.mem_append]
        exact .inl (ts_left hd hb hp)
      · left
        have ht : ts H M [] = Spec.treeStrings H M := by simp [ts, Spec.treeStrings]
        rw [← ht]
        exact ts_sub hM _ _ hp
    · have h3 := h2.gone d (by omega) hd hb
      have h4 : ub ((keyBits k).take d ++ [false]) m = [] := by
        apply Decidable.byContradiction
        intro hc
        unfold csib at h3
        rw [hb] at h3
        exact hnpl d hd hb _ (List.prefix_refl _) hc h3
      have h5 : ub ((keyBits k).take d ++ [false]) M = [] := by
        rw [List.eq_nil_iff_forall_not_mem]
        intro e he
        have hlt := lt_of_left hd hb he
        rw [mem_ub] at he
        have : e ∈ ub ((keyBits k).take D) M := by
          rw [mem_ub]
          refine ⟨he.1, (List.IsPrefix.trans ?_ (List.prefix_append _ _)).trans he.2⟩
          rw [show (keyBits k).take D = ((keyBits k).take d).take D by rw [List.take_take, Nat.min_eq_left (by omega)]]
          exact List.take_prefix _ _
        rw [s4, List.mem_singleton] at this
        rw [this] at hlt
        exact List.lt_irrefl _ hlt
      rw [h4, h5]
  have hcase : ∀ e : Entry, e.1.val < k.val → (e ∈ m ↔ e ∈ M) := by
    intro e he
    obtain ⟨d, hd, hb, hpre⟩ := left_of_lt he
    have := (hsub d hd hb).mem_iff (a := e)
    rw [mem_ub, mem_ub] at this
    exact ⟨fun h => (this.1 ⟨h, hpre⟩).1, fun h => (this.2 ⟨h, hpre⟩).1⟩
  intro e
  rw [mem_upto]
  have htri : ∀ e : Entry, ¬ k.val < e.1.val → e.1.val < k.val ∨ e.1 = k := by
    intro e h
    by_cases h2 : e.1.val < k.val
    · exact .inl h2
    · right
      apply Subtype.ext
      exact List.le_antisymm (List.not_lt.1 h) (List.not_lt.1 h2)
  constructor
  · intro he
    have hle := hk e he
    refine ⟨?_, hle⟩
    rcases htri e hle with h | h
    · exact (hcase e h).1 he
    · have : e = (k, vh) := by
        obtain ⟨a, b⟩ := e
        simp only at h
        subst h
        rw [hm.eq_of_mem he hmem]
      rw [this]; exact s1
  · rintro ⟨he, hle⟩
    rcases htri e hle with h | h
    · exact (hcase e h).2 he
    · have : e = (k, vh) := by
        obtain ⟨a, b⟩ := e
        simp only at h
        subst h
        rw [hM.eq_of_mem he s1]
      rw [this]; exact hmem

end
end Jmt
