import Verif.Proofs.Verify
/-!
# `check_compute_new_root` on the proofs returned by `put`
-/
namespace Jmt
open Spec (Entry)

theorem subProof_root (H : Hasher) (m : List Entry) (k : KeyHash) :
    subProof H m [] k.nibbles = specProof H m k := rfl

theorem pathHash_congr (H : Hasher) {k k' : KeyHash} (h : Digest) : ∀ (S : List SMNode) (d : Nat),
    (∀ i, d ≤ i → i < d + S.length → Spec.bit k i = Spec.bit k' i) →
    Spec.pathHash H k h d S = Spec.pathHash H k' h d S := by
  intro S
  induction S with
  | nil => intro d _; rfl
  | cons s S ih =>
    intro d hb
    simp only [Spec.pathHash]
    rw [hb d (by omega) (by simp), ih (d + 1) (fun i h1 h2 => hb i (by omega) (by simp; omega))]

theorem bit_of_take {k k' : KeyHash} {n i : Nat} (h : (keyBits k).take n = (keyBits k').take n)
    (hi : i < n) (h256 : i < 256) : Spec.bit k i = Spec.bit k' i := by
  have h1 := keyBits_getElem? k i h256
  have h2 := keyBits_getElem? k' i h256
  have : ((keyBits k).take n)[i]? = ((keyBits k').take n)[i]? := by rw [h]
  rw [List.getElem?_take, List.getElem?_take, if_pos hi, if_pos hi, h1, h2] at this
  simpa using this

theorem sib_not_prefix {b : List Bool} {x : Bool} {k : KeyHash} (h : b ++ [x] <+: keyBits k) :
    ¬ b ++ [!x] <+: keyBits k := by
  intro h'
  have h1 := (prefix_snoc_iff.1 h).2
  have h2 := (prefix_snoc_iff.1 h').2
  rw [h1] at h2
  cases x <;> simp at h2

section
variable {H : Hasher} {m m' : List Entry} {k : KeyHash}

theorem sh_congr {b : List Bool} (h : ub b m = ub b m') : sh H m b = sh H m' b := by
  unfold sh; rw [h]

theorem ub_congr_ext {b b' : List Bool} (h : ub b m = ub b m') (hb : b <+: b') : ub b' m = ub b' m' := by
  rw [← ub_ub hb m, ← ub_ub hb m', h]

theorem sibNode_congr {b : List Bool} (h : ub b m = ub b m') : sibNode H m b = sibNode H m' b := by
  have h1 : ∀ x, sh H m (b ++ [x]) = sh H m' (b ++ [x]) := fun x =>
    sh_congr (ub_congr_ext h (List.prefix_append _ _))
  unfold sibNode
  rw [h, h1, h1]

/-- The walk is the same in two maps that agree off the path, as long as the second map also has two
entries below every prefix passed. -/
theorem walk_congr : ∀ (xs b : List Bool), b ++ xs <+: keyBits k →
    (∀ b', ¬ b' <+: keyBits k → ub b' m = ub b' m') →
    (∀ b', b <+: b' → b' <+: keyBits k → 2 ≤ (ub b' m).length → 2 ≤ (ub b' m').length) →
    walk H m' b (xs.take (walk H m b xs).1.length) = walk H m b xs := by
  intro xs
  induction xs with
  | nil => intro b _ _ _; simp [walk]
  | cons x xs ih =>
    intro b hb hoff h2
    by_cases h : (ub b m).length ≤ 1
    · rw [walk_stop h]; simp [walk]
    · have hm2 : 2 ≤ (ub b m).length := by omega
      have hbx : b ++ [x] <+: keyBits k := (List.prefix_append _ _).trans (by simpa using hb)
      have hbk : b <+: keyBits k := (List.prefix_append _ _).trans hbx
      rw [walk_step hm2]
      simp only [List.length_cons, List.take_succ_cons]
      rw [walk_step (h2 b (List.prefix_refl _) hbk hm2)]
      rw [ih (b ++ [x]) (by simpa using hb) hoff
        (fun b' hb' => h2 b' ((List.prefix_append _ _).trans hb'))]
      rw [sibNode_congr (hoff _ (sib_not_prefix hbx))]

/-- Climbing the siblings of `m` in another map that agrees off the path. -/
theorem pathHash_other (hm : NodupE m) (hm' : NodupE m') : ∀ (xs b : List Bool), b ++ xs = keyBits k →
    (∀ b', ¬ b' <+: keyBits k → ub b' m = ub b' m') →
    (∀ b', b <+: b' → b' <+: (walk H m b xs).2 → b' ≠ (walk H m b xs).2 → 2 ≤ (ub b' m').length) →
    Spec.pathHash H k (sh H m' (walk H m b xs).2) b.length (walk H m b xs).1 = sh H m' b := by
  intro xs
  induction xs with
  | nil => intro b _ _ _; rfl
  | cons x xs ih =>
    intro b hk hoff h2
    by_cases h : (ub b m).length ≤ 1
    · rw [walk_stop h]; rfl
    · have hm2 : 2 ≤ (ub b m).length := by omega
      have hbx : b ++ [x] <+: keyBits k := by rw [← hk]; exact ⟨xs, by simp⟩
      rw [walk_step hm2] at h2 ⊢
      simp only [Spec.pathHash]
      have hpre : b ++ [x] <+: (walk H m (b ++ [x]) xs).2 := by
        rw [walk_end_eq]; exact List.prefix_append _ _
      have := ih (b ++ [x]) (by simpa using hk) hoff
        (fun b' hb' h3 h4 => h2 b' ((List.prefix_append _ _).trans hb') h3 h4)
      rw [List.length_append, List.length_singleton] at this
      have hb2 : 2 ≤ (ub b m').length := h2 b (List.prefix_refl _) ((List.prefix_append _ _).trans hpre)
        (by rintro hc; rw [← hc] at hpre; have := hpre.length_le; simp at this; omega)
      rw [this, sibNode_hash hm, ← (keyBits_split hk).1, sh_congr (hoff _ (sib_not_prefix hbx)),
        combine_sh hm' hb2]

/-- Two entries only: null siblings along the common bits, then the other leaf. -/
theorem walk_pair {v : ValueHash} {k' : KeyHash} {v' : ValueHash} : ∀ (xs ys b : List Bool) (n : Nat),
    b ++ xs = keyBits k → b ++ ys = keyBits k' → (∀ e, e ∈ ub b m ↔ e = (k, v) ∨ e = (k', v')) →
    NodupE m → (∀ i, i < n → xs[i]? = ys[i]?) → n < xs.length → xs[n]? ≠ ys[n]? →
    (walk H m b xs).1 = List.replicate n SMNode.null ++ [SMNode.leaf k' v'] ∧
    ub (walk H m b xs).2 m = [(k, v)] := by
  intro xs
  induction xs with
  | nil => intro ys b n _ _ _ _ _ h; simp at h
  | cons x xs ih =>
    intro ys b n hk hk' hmem hm hpre hn hne
    cases ys with
    | nil =>
      have h1 := congrArg List.length hk
      have h2 := congrArg List.length hk'
      simp at h1 h2; omega
    | cons y ys =>
      have hkk : k ≠ k' := by
        rintro rfl
        have : x :: xs = y :: ys := by
          have := hk.trans hk'.symm; simpa using this
        rw [this] at hne; exact hne rfl
      have hbl := (keyBits_split hk).2
      have hx := (keyBits_split hk).1
      have hy := (keyBits_split hk').1
      have two : 2 ≤ (ub b m).length := by
        have h1 : (k, v) ∈ ub b m := (hmem _).2 (.inl rfl)
        have h2 : (k', v') ∈ ub b m := (hmem _).2 (.inr rfl)
        rcases len_cases (ub b m) with h | ⟨e, h⟩ | h
        · rw [h] at h1; simp at h1
        · rw [h] at h1 h2; simp at h1 h2
          rw [← h2] at h1
          exact absurd (congrArg Prod.fst h1) hkk
        · exact h
      rw [walk_step two]
      have msub : ∀ z e, e ∈ ub (b ++ [z]) m ↔ (e = (k, v) ∧ x = z) ∨ (e = (k', v') ∧ y = z) := by
        intro z e
        rw [ub_snoc hbl, List.mem_filter, hmem]
        constructor
        · rintro ⟨rfl | rfl, h⟩
          · left; exact ⟨rfl, by rw [hx]; simpa using h⟩
          · right; exact ⟨rfl, by rw [hy]; simpa using h⟩
        · rintro (⟨rfl, h⟩ | ⟨rfl, h⟩)
          · exact ⟨.inl rfl, by rw [← hx, h]; simp⟩
          · exact ⟨.inr rfl, by rw [← hy, h]; simp⟩
      have single : ∀ (l : List Entry) (e : Entry), NodupE l → (∀ e', e' ∈ l ↔ e' = e) → l = [e] := by
        intro l e hnd h
        rcases len_cases l with h' | ⟨e', h'⟩ | h'
        · have := (h e).2 rfl; rw [h'] at this; simp at this
        · have := (h e).2 rfl; rw [h'] at this; simp at this; rw [h', this]
        · match l, h' with
          | a :: b :: t, _ =>
            have ha := (h a).1 (by simp)
            have hb := (h b).1 (by simp)
            subst ha; subst hb
            simp [NodupE] at hnd
      cases n with
      | zero =>
        have hxy : x ≠ y := by simpa using hne
        have hy' : y = !x := by cases x <;> cases y <;> simp_all
        have h1 : ub (b ++ [!x]) m = [(k', v')] := single _ _ (hm.ub _) (by
          intro e'; rw [msub]; rw [hy']
          constructor
          · rintro (⟨_, h⟩ | ⟨h, _⟩)
            · cases x <;> simp at h
            · exact h
          · intro h; exact .inr ⟨h, rfl⟩)
        have h2 : ub (b ++ [x]) m = [(k, v)] := single _ _ (hm.ub _) (by
          intro e'; rw [msub]
          constructor
          · rintro (⟨h, _⟩ | ⟨_, h⟩)
            · exact h
            · exact absurd h.symm hxy
          · intro h; exact .inl ⟨h, rfl⟩)
        rw [sibNode_one h1, walk_stop (by rw [h2]; simp)]
        exact ⟨rfl, h2⟩
      | succ n =>
        have hxy : x = y := by simpa using hpre 0 (by omega)
        subst hxy
        have h1 : ub (b ++ [!x]) m = [] := by
          rw [List.eq_nil_iff_forall_not_mem]
          intro e he
          rw [msub] at he
          rcases he with ⟨_, h⟩ | ⟨_, h⟩ <;> cases x <;> simp at h
        obtain ⟨i1, i2⟩ := ih ys (b ++ [x]) n (by simpa using hk) (by simpa using hk')
          (by intro e; rw [msub]; simp) hm
          (fun i hi => by have := hpre (i + 1) (by omega); simpa using this)
          (by simpa using hn) (by simpa using hne)
        rw [sibNode_nil h1, i1]
        exact ⟨by simp [List.replicate_succ], i2⟩


/-! ### The number of default siblings -/

theorem commonBits_eq : ∀ (xs ys : List Bool) (n : Nat), (∀ i, i < n → xs[i]? = ys[i]?) →
    n < xs.length → n < ys.length → xs[n]? ≠ ys[n]? → SMProof.commonBits xs ys = .ok n := by
  intro xs
  induction xs with
  | nil => intro ys n _ h; simp at h
  | cons x xs ih =>
    intro ys n hpre hx hy hne
    cases ys with
    | nil => simp at hy
    | cons y ys =>
      unfold SMProof.commonBits
      cases n with
      | zero =>
        have : x ≠ y := by simpa using hne
        rw [if_neg this]
      | succ n =>
        have : x = y := by simpa using hpre 0 (by omega)
        rw [if_pos this, ih ys n (fun i hi => by have := hpre (i + 1) (by omega); simpa using this)
          (by simpa using hx) (by simpa using hy) (by simpa using hne)]
        rfl

/-- The first differing bit of two distinct keys. -/
theorem first_diff {k k' : KeyHash} (h : k ≠ k') : ∃ c, c < 256 ∧
    (∀ i, i < c → (keyBits k)[i]? = (keyBits k')[i]?) ∧ (keyBits k)[c]? ≠ (keyBits k')[c]? := by
  have hne : ∃ i : Nat, (keyBits k)[i]? ≠ (keyBits k')[i]? := by
    apply Classical.byContradiction
    intro hc
    apply h
    apply keyBits_inj
    apply List.ext_getElem?
    intro i
    apply Classical.byContradiction
    intro h'; exact hc ⟨i, h'⟩
  obtain ⟨j, hj⟩ := hne
  have key : ∀ n : Nat, n ≤ j + 1 → (∀ i : Nat, i < n → (keyBits k)[i]? = (keyBits k')[i]?) ∨
      ∃ c : Nat, (∀ i : Nat, i < c → (keyBits k)[i]? = (keyBits k')[i]?) ∧ (keyBits k)[c]? ≠ (keyBits k')[c]? := by
    intro n
    induction n with
    | zero => intro _; left; intro i hi; omega
    | succ n ih =>
      intro hn
      rcases ih (by omega) with h1 | h1
      · by_cases h2 : (keyBits k)[n]? = (keyBits k')[n]?
        · left; intro i hi
          by_cases hin : i = n
          · rw [hin]; exact h2
          · exact h1 i (by omega)
        · right; exact ⟨n, h1, h2⟩
      · right; exact h1
  rcases key (j + 1) (Nat.le_refl _) with h1 | ⟨c, h1, h2⟩
  · exact absurd (h1 j (by omega)) hj
  · refine ⟨c, ?_, h1, h2⟩
    apply Decidable.byContradiction
    intro hc
    rw [List.getElem?_eq_none (by simp; omega), List.getElem?_eq_none (by simp; omega)] at h2
    exact h2 rfl

theorem numDefaultSiblings_eq {k k' : KeyHash} {c s : Nat} (checked : Bool) (hk : k ≠ k') (hc : c < 256)
    (hpre : ∀ i, i < c → (keyBits k)[i]? = (keyBits k')[i]?)
    (hne : (keyBits k)[c]? ≠ (keyBits k')[c]?) (hs : s ≤ c) :
    SMProof.numDefaultSiblings checked k' k s = .ok (c - s) := by
  obtain ⟨p, xs, ys, h1, h2, h3, h4⟩ := skipCommonPrefix_spec k.nibbles k'.nibbles
  have hl1 := congrArg List.length h2
  have hl2 := congrArg List.length h3
  simp only [nibbles_length, List.length_append] at hl1 hl2
  have hxne : xs ≠ [] := by
    intro hx
    rw [hx] at h2 hl1
    have hy : ys = [] := List.eq_nil_of_length_eq_zero (by simp at hl1; omega)
    rw [hy] at h3
    exact hk (nibbles_inj (h2.trans h3.symm))
  obtain ⟨a, xs', rfl⟩ := List.exists_cons_of_ne_nil hxne
  obtain ⟨b, ys', rfl⟩ := List.exists_cons_of_ne_nil (l := ys) (by
    intro hy; rw [hy] at hl2; simp at hl1 hl2; omega)
  have hab := h4 a xs' b ys' rfl rfl
  have e1 : keyBits k = pathBits p ++ pathBits (a :: xs') := by unfold keyBits; rw [h2]; simp
  have e2 : keyBits k' = pathBits p ++ pathBits (b :: ys') := by unfold keyBits; rw [h3]; simp
  have hget : ∀ i, (keyBits k)[4 * p.length + i]? = (pathBits (a :: xs'))[i]? := by
    intro i; rw [e1, List.getElem?_append_right (by simp)]; simp
  have hget' : ∀ i, (keyBits k')[4 * p.length + i]? = (pathBits (b :: ys'))[i]? := by
    intro i; rw [e2, List.getElem?_append_right (by simp)]; simp
  have hlo : 4 * p.length ≤ c := by
    apply Decidable.byContradiction
    intro hlt
    apply hne
    rw [e1, e2, List.getElem?_append_left (by simp; omega), List.getElem?_append_left (by simp; omega)]
  have hhi : c < 4 * p.length + 4 := by
    apply Decidable.byContradiction
    intro hge
    apply hab
    apply nibbleBits_inj
    apply List.ext_getElem?
    intro i
    by_cases hi : i < 4
    · have := hpre (4 * p.length + i) (by omega)
      rw [hget, hget', pathBits_cons, pathBits_cons, List.getElem?_append_left (by simpa using hi),
        List.getElem?_append_left (by simpa using hi)] at this
      exact this
    · rw [List.getElem?_eq_none (by simp; omega), List.getElem?_eq_none (by simp; omega)]
  obtain ⟨r, rfl⟩ : ∃ r, c = 4 * p.length + r := ⟨c - 4 * p.length, by omega⟩
  have hcb : SMProof.commonBits ((a :: xs').flatMap Nibble.bits) ((b :: ys').flatMap Nibble.bits) = .ok r := by
    apply commonBits_eq
    · intro i hi
      have := hpre (4 * p.length + i) (by omega)
      rwa [hget, hget'] at this
    · show r < (pathBits (a :: xs')).length
      simp; omega
    · show r < (pathBits (b :: ys')).length
      simp; omega
    · rwa [hget, hget'] at hne
  unfold SMProof.numDefaultSiblings
  simp only [h1, hcb]
  have u1 : usub checked (4 * (p.length + 1)) s = .ok (4 * (p.length + 1) - s) := by
    unfold usub; rw [if_pos (by omega)]
  rw [u1]
  simp only [ok_bind]
  have u2 : ∀ a b, a + b < 1000 → uadd checked a b = .ok (a + b) := by
    intro a b h; unfold uadd u64Size; rw [if_pos (by omega)]
  rw [u2 _ _ (by omega)]
  simp only [ok_bind]
  rw [u2 _ _ (by omega)]
  simp only [ok_bind]
  unfold usub
  rw [if_pos (by omega)]
  congr 1
  omega

/-! ### The new root -/

theorem rootHash_eq (checked : Bool) {P : SMProof} {l : KeyHash × ValueHash} (hl : P.leaf = some l)
    (hn : P.siblings.length ≤ 256) :
    SMProof.rootHash H checked P = .ok (Spec.pathHash H l.1 (H.leafHash l.1 l.2) 0 P.siblings.reverse) := by
  unfold SMProof.rootHash
  rw [hl]
  simp only
  unfold usub
  rw [if_pos hn, ok_bind, foldSiblings_eq H _ _ _ hn]
  rfl

theorem upd_off {x : Option ValueHash} (b : List Bool) (h : ¬ b <+: keyBits k) : ub b m = ub b (upd m k x) :=
  (ub_upd_of_not_prefix h).symm


/-- Where the walk of `m` ends with nothing or with the key itself, the proof with the new leaf is the
canonical proof in the updated map. -/
theorem specProof_upd_same (hm : NodupE m) (v : ValueHash)
    (h : ∀ e ∈ ub (walk H m [] (keyBits k)).2 m, e.1 = k) :
    specProof H (upd m k (some v)) k = ⟨some (k, v), (specProof H m k).siblings⟩ := by
  have hpre := (walk_mem (H := H) hm k).2
  have hw := walk_congr (H := H) (m := m) (m' := upd m k (some v)) (k := k) (keyBits k) []
    (by simp) (fun b' h => upd_off b' h) (fun b' _ hb h2 => by
      rw [ub_upd_of_prefix hb]
      exact Nat.le_trans h2 (length_upd_some (hm.ub _) _ _))
  have hend : ub (walk H m [] (keyBits k)).2 (upd m k (some v)) = [(k, v)] := by
    rw [ub_upd_of_prefix hpre]
    unfold upd
    simp only [List.cons_append, List.nil_append]
    rw [List.filter_eq_nil_iff.2]
    intro e he; simp [h e he]
  have hfull : walk H (upd m k (some v)) [] (keyBits k) = walk H m [] (keyBits k) := by
    have e : ∀ W, W = walk H m [] (keyBits k) →
        walk H (upd m k (some v)) [] ((keyBits k).take W.1.length ++ (keyBits k).drop W.1.length) = W := by
      intro W hW
      rw [walk_append]
      subst hW
      rw [hw, walk_stop (m := upd m k (some v)) (by rw [hend]; simp)]
      simp
    have := e _ rfl
    rwa [List.take_append_drop] at this
  unfold specProof
  rw [hfull, hend]
  rfl

/-- Where the walk ends at another leaf, the canonical proof in the updated map. -/
theorem specProof_upd_split (hm : NodupE m) (v : ValueHash) {k' : KeyHash} {v' : ValueHash} (hk : k ≠ k')
    (h : ub (walk H m [] (keyBits k)).2 m = [(k', v')]) {c : Nat} (hc : c < 256)
    (hpre : ∀ i, i < c → (keyBits k)[i]? = (keyBits k')[i]?)
    (hne : (keyBits k)[c]? ≠ (keyBits k')[c]?) :
    (specProof H m k).siblings.length ≤ c ∧
    specProof H (upd m k (some v)) k = ⟨some (k, v),
      SMNode.leaf k' v' :: (List.replicate (c - (specProof H m k).siblings.length) SMNode.null
        ++ (specProof H m k).siblings)⟩ := by
  have hp := (walk_mem (H := H) hm k).2
  have hmem' : (k', v') ∈ ub (walk H m [] (keyBits k)).2 m := by rw [h]; simp
  have hp' := (mem_ub.1 hmem').2
  have hw := walk_congr (H := H) (m := m) (m' := upd m k (some v)) (k := k) (keyBits k) []
    (by simp) (fun b' h => upd_off b' h) (fun b' _ hb h2 => by
      rw [ub_upd_of_prefix hb]
      exact Nat.le_trans h2 (length_upd_some (hm.ub _) _ _))
  have hend : ub (walk H m [] (keyBits k)).2 (upd m k (some v)) = [(k, v), (k', v')] := by
    rw [ub_upd_of_prefix hp, h]
    unfold upd
    simp [hk.symm]
  have heq := walk_end_eq (H := H) (m := m) [] (keyBits k)
  rw [List.nil_append] at heq
  have hlen : (walk H m [] (keyBits k)).1.length ≤ 256 := by
    have := walk_len_le (H := H) (m := m) [] (keyBits k); simpa using this
  generalize hW : walk H m [] (keyBits k) = W at *
  have hbl : W.2.length = W.1.length := by rw [heq]; simp [hlen]
  obtain ⟨xs, hxs⟩ := hp
  obtain ⟨ys, hys⟩ := hp'
  have hsc : W.1.length ≤ c := by
    apply Decidable.byContradiction
    intro hlt
    apply hne
    rw [← hxs, ← hys, List.getElem?_append_left (by omega), List.getElem?_append_left (by omega)]
  have gx : ∀ i, xs[i]? = (keyBits k)[W.1.length + i]? := by
    intro i; rw [← hxs, List.getElem?_append_right (by omega)]; congr 1; omega
  have gy : ∀ i, ys[i]? = (keyBits k')[W.1.length + i]? := by
    intro i; rw [← hys, List.getElem?_append_right (by omega)]; congr 1; omega
  have hxl : W.2.length + xs.length = 256 := by rw [← List.length_append, hxs]; simp
  obtain ⟨p1, p2⟩ := walk_pair (H := H) (m := upd m k (some v)) (k := k) (v := v) (k' := k') (v' := v')
    xs ys W.2 (c - W.1.length) hxs hys (by intro e; rw [hend]; simp) (hm.upd _ _)
    (fun i hi => by rw [gx, gy]; exact hpre _ (by omega)) (by omega)
    (by rw [gx, gy]; rw [show W.1.length + (c - W.1.length) = c by omega]; exact hne)
  have hfull : walk H (upd m k (some v)) [] (keyBits k)
      = (W.1 ++ (walk H (upd m k (some v)) W.2 xs).1, (walk H (upd m k (some v)) W.2 xs).2) := by
    have : keyBits k = (keyBits k).take W.1.length ++ xs := by
      rw [← heq, hxs]
    rw [this, walk_append, hw]
  unfold specProof
  simp only [hW, List.length_reverse]
  refine ⟨hsc, ?_⟩
  rw [hfull, p1, p2]
  simp

/-- Dropping the trailing null siblings (root-first list). -/
theorem dropNulls_cons (a : SMNode) (L : List SMNode) :
    (((a :: L).reverse).dropWhile SMProof.isNull).reverse
      = if ((L.reverse).dropWhile SMProof.isNull).reverse = [] then (if SMProof.isNull a then [] else [a])
        else a :: ((L.reverse).dropWhile SMProof.isNull).reverse := by
  rw [List.reverse_cons, List.dropWhile_append]
  by_cases h : (L.reverse).dropWhile SMProof.isNull = []
  · rw [if_pos (by simpa using h)]
    rw [h]
    simp only [List.reverse_nil, if_true]
    cases hn : SMProof.isNull a <;> simp [List.dropWhile, hn]
  · rw [if_neg (by simpa using h), if_neg (by simpa using h)]
    simp

theorem isNull_iff {s : SMNode} : SMProof.isNull s = true ↔ s = .null := by
  unfold SMProof.isNull; simp

/-- Deleting next to a leaf: the leaf moves up over the null siblings. -/
theorem delete_up (hm : NodupE m) {v : ValueHash} {k2 : KeyHash} {v2 : ValueHash} : ∀ (xs b : List Bool),
    b ++ xs = keyBits k → ub (walk H m b xs).2 m = [(k, v)] →
    (walk H m b xs).1.getLast? = some (SMNode.leaf k2 v2) →
    Spec.pathHash H k (H.leafHash k2 v2) b.length
      ((((walk H m b xs).1.dropLast.reverse).dropWhile SMProof.isNull).reverse) = sh H (upd m k none) b ∧
    ((((walk H m b xs).1.dropLast.reverse).dropWhile SMProof.isNull).reverse = [] →
      ub b (upd m k none) = [(k2, v2)]) ∧
    ((((walk H m b xs).1.dropLast.reverse).dropWhile SMProof.isNull).reverse ≠ [] →
      2 ≤ (ub b (upd m k none)).length) := by
  intro xs
  induction xs with
  | nil => intro b _ _ h; simp [walk] at h
  | cons x xs ih =>
    intro b hk hend hlast
    by_cases h : (ub b m).length ≤ 1
    · rw [walk_stop h] at hlast; simp at hlast
    · have hm2 : 2 ≤ (ub b m).length := by omega
      have hbl := (keyBits_split hk).2
      have hbx : b ++ [x] <+: keyBits k := by rw [← hk]; exact ⟨xs, by simp⟩
      have hsplit : (ub b (upd m k none)).Perm
          (ub (b ++ [x]) (upd m k none) ++ ub (b ++ [!x]) (upd m k none)) := by
        have := (ub_split_perm hbl (upd m k none)).symm
        cases x
        · exact this
        · exact this.trans List.perm_append_comm
      have hoff : ub (b ++ [!x]) (upd m k none) = ub (b ++ [!x]) m := ub_upd_of_not_prefix (sib_not_prefix hbx)
      rw [walk_step hm2] at hend hlast ⊢
      simp only at hend hlast
      by_cases hrest : (walk H m (b ++ [x]) xs).1 = []
      · -- the last sibling
        have hwe := walk_end_eq (H := H) (m := m) (b ++ [x]) xs
        rw [hrest] at hwe hlast ⊢
        simp only [List.length_nil, List.take_zero, List.append_nil] at hwe
        rw [hwe] at hend
        have hx0 : ub (b ++ [x]) (upd m k none) = [] := by
          rw [ub_upd_of_prefix hbx, hend]; simp [upd]
        simp only [List.getLast?_singleton, Option.some.injEq] at hlast
        have hs : ub (b ++ [!x]) m = [(k2, v2)] := by
          rcases len_cases (ub (b ++ [!x]) m) with g | ⟨e, g⟩ | g
          · rw [sibNode_nil g] at hlast; cases hlast
          · rw [sibNode_one g] at hlast
            simp only [SMNode.leaf.injEq] at hlast
            rw [g]; simp [Prod.ext_iff, hlast]
          · rw [sibNode_two g] at hlast; cases hlast
        have hb1 : ub b (upd m k none) = [(k2, v2)] := by
          rw [hx0, hoff, hs] at hsplit
          simpa using hsplit
        refine ⟨?_, fun _ => hb1, by simp⟩
        rw [sh_one H hb1]; rfl
      · rw [List.getLast?_cons_of_ne_nil hrest] at hlast
        obtain ⟨i1, i2, i3⟩ := ih (b ++ [x]) (by simpa using hk) hend hlast
        rw [List.dropLast_cons_of_ne_nil hrest, dropNulls_cons]
        rw [List.length_append, List.length_singleton] at i1
        have hpos : 1 ≤ (ub (b ++ [x]) (upd m k none)).length := by
          rcases Nat.eq_zero_or_pos (ub (b ++ [x]) (upd m k none)).length with hz | hz
          · by_cases hT : ((((walk H m (b ++ [x]) xs).1.dropLast.reverse).dropWhile SMProof.isNull).reverse) = []
            · rw [i2 hT]; simp
            · have := i3 hT; omega
          · exact hz
        have hlen := hsplit.length_eq
        rw [List.length_append] at hlen
        have up : 2 ≤ (ub b (upd m k none)).length → ∀ (T : List SMNode),
            Spec.pathHash H k (H.leafHash k2 v2) (b.length + 1) T = sh H (upd m k none) (b ++ [x]) →
            Spec.pathHash H k (H.leafHash k2 v2) b.length (sibNode H m (b ++ [!x]) :: T)
              = sh H (upd m k none) b := by
          intro h2 T hT
          simp only [Spec.pathHash]
          rw [hT, sibNode_hash hm, ← (keyBits_split hk).1, sh_congr hoff.symm, combine_sh (hm.upd _ _) h2]
        split
        · next hT =>
          rw [hT] at i1
          have h1 := i2 hT
          split
          · next hnull =>
            have hu : ub (b ++ [!x]) m = [] := by
              have := isNull_iff.1 hnull
              rcases len_cases (ub (b ++ [!x]) m) with g | ⟨e, g⟩ | g
              · exact g
              · rw [sibNode_one g] at this; cases this
              · rw [sibNode_two g] at this; cases this
            have hb1 : ub b (upd m k none) = [(k2, v2)] := by
              rw [hoff, hu, h1] at hsplit
              simpa using hsplit
            exact ⟨by rw [sh_one H hb1]; rfl, fun _ => hb1, by simp⟩
          · next hnull =>
            have hu : ub (b ++ [!x]) m ≠ [] := by
              intro g; apply hnull; rw [isNull_iff]; exact sibNode_nil g
            have h2 : 2 ≤ (ub b (upd m k none)).length := by
              rw [hoff] at hlen
              have : (ub (b ++ [!x]) m).length ≠ 0 := fun hz => hu (List.eq_nil_of_length_eq_zero hz)
              omega
            exact ⟨up h2 [] i1, fun hc => by simp at hc, fun _ => h2⟩
        · next hT =>
          have h2 := i3 hT
          exact ⟨up (by omega) _ i1, fun hc => by simp at hc, fun _ => by omega⟩

theorem specProof_leaf_ub (hm : NodupE m) (k : KeyHash) :
    ub (walk H m [] (keyBits k)).2 m = (match (specProof H m k).leaf with | none => [] | some l => [l]) := by
  have h1 := (walk_mem (H := H) hm k).1
  unfold specProof
  simp only
  rcases len_cases (ub (walk H m [] (keyBits k)).2 m) with h | ⟨e, h⟩ | h
  · rw [h]; rfl
  · rw [h]; rfl
  · omega

/-- The hash computed from a proof ending at a leaf on the path of `k`. -/
theorem specProof_rootHash (hm : NodupE m) (checked : Bool) {l : KeyHash × ValueHash}
    (hl : (specProof H m k).leaf = some l) :
    SMProof.rootHash H checked (specProof H m k) = .ok (sh H m []) := by
  rw [rootHash_eq checked hl (specProof_len H m k)]
  have hr := specProof_root (H := H) (k := k) hm
  rw [hl] at hr
  have hub := specProof_leaf_ub (H := H) hm k
  rw [hl] at hub
  have hmem : l ∈ ub (walk H m [] (keyBits k)).2 m := by rw [hub]; simp
  have hp' := (mem_ub.1 hmem).2
  have heq := walk_end_eq (H := H) (m := m) [] (keyBits k)
  rw [List.nil_append] at heq
  have hlen := specProof_len H m k
  rw [← hr]
  congr 1
  apply pathHash_congr
  intro i _ hi
  have hi' : i < (walk H m [] (keyBits k)).1.length := by simpa [specProof] using hi
  have hlen' : (walk H m [] (keyBits k)).1.length ≤ 256 := by simpa [specProof] using hlen
  refine bit_of_take (n := (walk H m [] (keyBits k)).1.length) ?_ hi' (by omega)
  rw [heq] at hp'
  rw [List.prefix_iff_eq_take.1 hp', List.length_take]
  congr 1
  simp; omega

theorem checkComputeNewRoot_insert (hm : NodupE m) (checked : Bool) (x : Value) :
    SMProof.checkComputeNewRoot H checked (specProof H m k) (sh H m []) k (some x)
      = .ok (sh H (upd m k (some (H.hash x))) []) := by
  have hub := specProof_leaf_ub (H := H) hm k
  have hsame : (∀ e ∈ ub (walk H m [] (keyBits k)).2 m, e.1 = k) →
      SMProof.rootHash H checked ⟨some (k, H.hash x), (specProof H m k).siblings⟩
        = .ok (sh H (upd m k (some (H.hash x))) []) := by
    intro h
    rw [← specProof_upd_same hm (H.hash x) h]
    exact specProof_rootHash (hm.upd _ _) checked (l := (k, H.hash x))
      (by rw [specProof_leaf_iff (hm.upd _ _)]; rw [mem_upd]; left; exact ⟨rfl, rfl⟩)
  unfold SMProof.checkComputeNewRoot
  cases hl : (specProof H m k).leaf with
  | none =>
    rw [hl] at hub
    have hno : ∀ vh, (k, vh) ∉ m := by
      intro vh hmem
      rw [← specProof_leaf_iff (H := H) hm, hl] at hmem; cases hmem
    simp only
    unfold SMProof.verifyNonexistence
    rw [specProof_verifies_nonexistence hm hno]
    exact hsame (by rw [hub]; simp)
  | some l =>
    rw [hl] at hub
    simp only
    rw [specProof_rootHash hm checked hl, ok_bind, if_neg (by simp)]
    by_cases hk : k = l.1
    · rw [if_pos hk]
      exact hsame (by rw [hub]; simp [hk])
    · rw [if_neg hk]
      obtain ⟨c, c1, c2, c3⟩ := first_diff hk
      obtain ⟨s1, s2⟩ := specProof_upd_split hm (H.hash x) hk hub c1 c2 c3
      unfold SMProof.computeNewMerklePathOnSplit
      rw [numDefaultSiblings_eq checked hk c1 c2 c3 s1]
      have hlen := specProof_len H m k
      have u2 : ∀ a b, a + b < 1000 → uadd checked a b = .ok (a + b) := by
        intro a b h; unfold uadd u64Size; rw [if_pos (by omega)]
      simp only [ok_bind]
      rw [u2 _ _ (by omega)]
      simp only [ok_bind]
      rw [u2 _ _ (by omega)]
      simp only [ok_bind]
      rw [if_neg (by unfold SMProof.maxVec; omega)]
      simp only [ok_bind]
      have hP : (⟨some (k, H.hash x), ([SMNode.leaf l.1 l.2] ++
          List.replicate (c - (specProof H m k).siblings.length + 1 - 1) SMNode.null).take
            (c - (specProof H m k).siblings.length + 1) ++ (specProof H m k).siblings⟩ : SMProof)
          = specProof H (upd m k (some (H.hash x))) k := by
        rw [s2]
        congr 1
        simp
      rw [hP]
      exact specProof_rootHash (hm.upd _ _) checked (l := (k, H.hash x))
        (by rw [specProof_leaf_iff (hm.upd _ _)]; rw [mem_upd]; left; exact ⟨rfl, rfl⟩)

/-- The last sibling of a walk. -/
theorem bottom_sib : ∀ (xs b : List Bool) (S : List SMNode) (s : SMNode), b ++ xs = keyBits k →
    (walk H m b xs).1 = S ++ [s] →
    ∃ bl x, (walk H m b xs).2 = bl ++ [x] ∧ s = sibNode H m (bl ++ [!x]) ∧ b <+: bl := by
  intro xs
  induction xs with
  | nil => intro b S s _ h; simp [walk] at h
  | cons x xs ih =>
    intro b S s hk hw
    by_cases h : (ub b m).length ≤ 1
    · rw [walk_stop h] at hw; simp at hw
    · rw [walk_step (by omega)] at hw ⊢
      simp only at hw ⊢
      cases S with
      | nil =>
        simp only [List.nil_append, List.cons.injEq] at hw
        have hwe := walk_end_eq (H := H) (m := m) (b ++ [x]) xs
        rw [hw.2] at hwe
        exact ⟨b, x, by simpa using hwe, hw.1.symm, List.prefix_refl _⟩
      | cons a S =>
        simp only [List.cons_append, List.cons.injEq] at hw
        obtain ⟨bl, y, h1, h2, h3⟩ := ih (b ++ [x]) S s (by simpa using hk) hw.2
        exact ⟨bl, y, h1, h2, (List.prefix_append _ _).trans h3⟩

theorem rootAfterDelete_eq (hm : NodupE m) (checked : Bool) {v : ValueHash} (hmem : (k, v) ∈ m) :
    SMProof.rootAfterDelete H checked (specProof H m k).siblings k = .ok (sh H (upd m k none) []) := by
  have hl := (specProof_leaf_iff (H := H) hm k v).2 hmem
  have hub := specProof_leaf_ub (H := H) hm k
  rw [hl] at hub
  simp only at hub
  have hhead := specProof_head (H := H) hm k
  have hlen := specProof_len H m k
  have hpre := (walk_mem (H := H) hm k).2
  unfold SMProof.rootAfterDelete
  cases hs : (specProof H m k).siblings with
  | nil =>
    have hw : (walk H m [] (keyBits k)).1 = [] := by simpa [specProof] using hs
    have heq := walk_end_eq (H := H) (m := m) [] (keyBits k)
    rw [hw] at heq
    simp at heq
    rw [heq] at hub
    have : ub [] (upd m k none) = [] := by
      rw [ub_upd_of_prefix (List.nil_prefix), hub]; simp [upd]
    rw [sh_zero H this]
    rfl
  | cons s0 rest =>
    rw [hs] at hhead hlen
    have hnn : SMProof.isNull s0 = false := by
      rw [Bool.eq_false_iff]; intro h; apply hhead; rw [isNull_iff.1 h]; rfl
    have hw : (walk H m [] (keyBits k)).1 = rest.reverse ++ [s0] := by
      have : (walk H m [] (keyBits k)).1.reverse = s0 :: rest := by simpa [specProof] using hs
      have := congrArg List.reverse this
      simpa using this
    have hend0 : ub (walk H m [] (keyBits k)).2 (upd m k none) = [] := by
      rw [ub_upd_of_prefix hpre, hub]; simp [upd]
    rw [List.dropWhile_cons_of_neg (by simp [hnn])]
    match s0 with
    | .null => exact absurd rfl hhead
    | .leaf k2 v2 =>
      simp only
      have hrl : (rest.dropWhile SMProof.isNull).length ≤ 256 := by
        have := (List.dropWhile_sublist SMProof.isNull (l := rest)).length_le
        simp at hlen; omega
      unfold usub
      rw [if_pos hrl, ok_bind, foldSiblings_eq H _ _ _ hrl]
      have := (delete_up (H := H) hm (k := k) (v := v) (k2 := k2) (v2 := v2) (keyBits k) [] rfl hub
        (by rw [hw]; simp)).1
      rw [hw] at this
      simp only [List.dropLast_concat, List.reverse_reverse, List.length_nil] at this
      rw [this]
    | .internal l r =>
      simp only
      unfold usub
      rw [if_pos (by simpa using hlen), ok_bind]
      have hfe := foldSiblings_eq H placeholder (SMNode.internal l r :: rest) k (by simpa using hlen)
      rw [List.length_cons] at hfe
      rw [hfe]
      have hpo := pathHash_other (H := H) (k := k) hm (hm.upd k none) (keyBits k) [] rfl
        (fun b' h => upd_off b' h) (by
          intro b' _ h1 h2
          -- the bottom sibling is below every proper prefix
          have heq := walk_end_eq (H := H) (m := m) [] (keyBits k)
          rw [List.nil_append] at heq
          have hwlen : (walk H m [] (keyBits k)).1.length = rest.length + 1 := by rw [hw]; simp
          rw [hwlen] at heq
          obtain ⟨bl, x, e1, e2, e3⟩ := bottom_sib (H := H) (m := m) (k := k) (keyBits k) [] rest.reverse
            (SMNode.internal l r) rfl hw
          have hlt : b'.length ≤ bl.length := by
            have := h1.length_le
            have hne : b'.length ≠ (walk H m [] (keyBits k)).2.length := fun hc => h2 (h1.eq_of_length hc)
            rw [e1] at this hne
            simp at this hne; omega
          have hb'bl : b' <+: bl := by
            rw [e1] at h1
            exact List.prefix_of_prefix_length_le h1 (List.prefix_append _ _) hlt
          have h2' : 2 ≤ (ub (bl ++ [!x]) m).length := by
            rcases len_cases (ub (bl ++ [!x]) m) with g | ⟨e, g⟩ | g
            · rw [sibNode_nil g] at e2; cases e2
            · rw [sibNode_one g] at e2; cases e2
            · exact g
          have hoff : ub (bl ++ [!x]) (upd m k none) = ub (bl ++ [!x]) m :=
            ub_upd_of_not_prefix (sib_not_prefix (by rw [← e1]; exact hpre))
          rw [← hoff, ← ub_ub (hb'bl.trans (List.prefix_append _ _))] at h2'
          exact Nat.le_trans h2' (List.length_filter_le _ _))
      rw [sh_zero H hend0, hw] at hpo
      simpa using hpo

/-- `check_compute_new_root` accepts every proof returned by `put` and computes the root of the updated
map. -/
theorem checkComputeNewRoot_put (hm : NodupE m) (checked : Bool) {x : Option Value} {P : SMProof}
    (hP : PutProof H m k (x.map H.hash) P) :
    SMProof.checkComputeNewRoot H checked P (sh H m []) k x = .ok (sh H (upd m k (x.map H.hash)) []) := by
  cases hP with
  | noop hx hno =>
    cases x with
    | some v => simp at hx
    | none =>
      rw [Option.map_none, upd_none_of_not_mem hno]
      rfl
  | change hx =>
    rw [subProof_root]
    cases x with
    | some v => exact checkComputeNewRoot_insert hm checked v
    | none =>
      obtain ⟨⟨k', v⟩, he, rfl⟩ := hx rfl
      unfold SMProof.checkComputeNewRoot
      have hl := (specProof_leaf_iff (H := H) hm k' v).2 he
      simp only [hl]
      rw [specProof_rootHash hm checked hl, ok_bind, if_neg (by simp), if_neg (by simp)]
      exact rootAfterDelete_eq hm checked he

theorem updateLoop_put (checked : Bool) {ws : ValueSet} {ps : List SMProof} (h : ProofsFor H m ws ps)
    (hm : NodupE m) : ws.length = ps.length ∧
    SMProof.updateLoop H checked ps ws (sh H m []) = .ok (sh H (updAll H m ws) []) := by
  induction h with
  | nil m => exact ⟨rfl, rfl⟩
  | cons hP _ ih =>
    obtain ⟨i1, i2⟩ := ih (hm.upd _ _)
    refine ⟨by simp [i1], ?_⟩
    unfold SMProof.updateLoop
    rw [checkComputeNewRoot_put hm checked hP, ok_bind, i2]
    rfl

theorem verifyUpdate_put (checked : Bool) {ws : ValueSet} {ps : List SMProof} (h : ProofsFor H m ws ps)
    (hm : NodupE m) :
    SMProof.verifyUpdate H checked ps (sh H m []) (sh H (updAll H m ws) []) ws = .ok () := by
  obtain ⟨i1, i2⟩ := updateLoop_put checked h hm
  unfold SMProof.verifyUpdate
  rw [if_neg (by simpa using i1), i2, ok_bind, if_neg (by simp)]

end
end Jmt
