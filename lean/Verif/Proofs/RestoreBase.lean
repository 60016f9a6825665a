import Verif.Model.Restore
import Verif.Proofs.Range
import Verif.Proofs.Sorted
import Verif.Proofs.Exclusion
import Verif.Proofs.Nib
import Verif.Proofs.BytesView
import Verif.Proofs.Insert
/-!
# Restore, part 1: nibbles, common prefixes, and the shape of the partial nodes
-/
namespace Jmt
open Spec (Entry)

/-- Length of the common nibble prefix. -/
def lcpN (k k' : KeyHash) : Nat := Bytes32.commonPrefixNibblesLen k k'

theorem keyBits_take4 (k : KeyHash) {n : Nat} (hn : n ≤ 64) : (keyBits k).take (4 * n) = pathBits (k.nibbles.take n) := by
  have h0 : pathBits (k.nibbles.take n) <+: keyBits k := pathBits_prefix.2 (List.take_prefix _ _)
  have hl : (pathBits (k.nibbles.take n)).length = 4 * n := by
    simp; omega
  have := List.prefix_iff_eq_take.1 h0
  rw [hl] at this
  exact this.symm

theorem le_lcpN {k k' : KeyHash} {n : Nat} (hn : n ≤ 64) :
    n ≤ lcpN k k' ↔ k.nibbles.take n = k'.nibbles.take n := by
  unfold lcpN Bytes32.commonPrefixNibblesLen
  have h4 : n ≤ Bytes32.commonPrefixBitsLen k k' / 4 ↔ 4 * n ≤ Bytes32.commonPrefixBitsLen k k' := by omega
  rw [h4, le_commonPrefixBitsLen (by omega), keyBits_take4 k hn, keyBits_take4 k' hn]
  exact ⟨pathBits_inj, fun h => by rw [h]⟩

theorem nib_lt_of_lt {k k' : KeyHash} {c : Nat} (hc : c < 64) (h : k.val < k'.val)
    (he : k.nibbles.take c = k'.nibbles.take c) (hn : nib k c ≠ nib k' c) : nib k c < nib k' c := by
  have h1 := nibbles_lt.2 h
  rw [← List.take_append_drop c k.nibbles, ← List.take_append_drop c k'.nibbles, ← he, drop_nib hc,
    drop_nib hc] at h1
  generalize k.nibbles.take c = p at h1
  have : ∀ (p : List Nibble) {a b : List Nibble}, p ++ a < p ++ b → a < b := by
    intro p
    induction p with
    | nil => intro a b h; exact h
    | cons x p ih =>
      intro a b h
      apply ih
      rw [List.cons_append, List.cons_append, List.cons_lt_cons_iff] at h
      rcases h with h | h
      · exact absurd h (Nat.lt_irrefl _)
      · exact h.2
  have h2 := this p h1
  rw [List.cons_lt_cons_iff] at h2
  rcases h2 with h2 | h2
  · exact h2
  · exact absurd h2.1 hn

theorem lcpN_spec {k k' : KeyHash} (h : k.val < k'.val) :
    lcpN k k' < 64 ∧ k.nibbles.take (lcpN k k') = k'.nibbles.take (lcpN k k') ∧
    nib k (lcpN k k') < nib k' (lcpN k k') := by
  have hlt : lcpN k k' < 64 := by
    apply Decidable.byContradiction
    intro hc
    have := (le_lcpN (k := k) (k' := k') (Nat.le_refl 64)).1 (by omega)
    rw [List.take_of_length_le (by simp), List.take_of_length_le (by simp)] at this
    rw [nibbles_inj this] at h
    exact List.lt_irrefl _ h
  have he := (le_lcpN (k := k) (k' := k') (n := lcpN k k') (by omega)).1 (Nat.le_refl _)
  refine ⟨hlt, he, nib_lt_of_lt hlt h he fun hn => ?_⟩
  have : lcpN k k' + 1 ≤ lcpN k k' := (le_lcpN (by omega)).2 (by
    rw [take_succ_nib hlt, take_succ_nib hlt, he, hn])
  omega

/-! ### What is known about a completed subtree -/

section
variable (H : Hasher)

/-- Complete information about the subtree at `q`. -/
def cinfo (m : List Entry) (q : List Nibble) : Option ChildInfo :=
  match under q m with
  | [] => none
  | [e] => some (.leaf ⟨e.1, e.2⟩)
  | es => some (.internal (some (sh H m (pathBits q))) es.length)

/-- A node all of whose children are complete. -/
def fullInfo (m : List Entry) (w : Version) (p : List Nibble) : InternalInfo := ⟨⟨w, p⟩, fun j => cinfo H m (p ++ [j])⟩

/-- The `i`-th node on the path of `k`, with an incomplete child on the path. -/
def openInfo (m : List Entry) (w : Version) (k : KeyHash) (i : Nat) : InternalInfo :=
  ⟨⟨w, k.nibbles.take i⟩, fun j => if j = nib k i then some (.internal none 0) else cinfo H m (k.nibbles.take i ++ [j])⟩

/-- The first `n` nodes on the path of `k`. -/
def openPath (m : List Entry) (w : Version) (k : KeyHash) (n : Nat) : List InternalInfo :=
  (List.range n).map (openInfo H m w k)

variable {H}
variable {m m' : List Entry} {w : Version} {q : List Nibble}

theorem cinfo_nil (h : under q m = []) : cinfo H m q = none := by simp [cinfo, h]
theorem cinfo_one {e} (h : under q m = [e]) : cinfo H m q = some (.leaf ⟨e.1, e.2⟩) := by simp [cinfo, h]
theorem cinfo_two (h : 2 ≤ (under q m).length) :
    cinfo H m q = some (.internal (some (sh H m (pathBits q))) (under q m).length) := by
  match hu : under q m with
  | [] => simp [hu] at h
  | [e] => simp [hu] at h
  | e :: e' :: t => simp [cinfo, hu]

theorem cinfo_isSome : (cinfo H m q).isSome = true ↔ under q m ≠ [] := by
  rcases len_cases (under q m) with h | ⟨e, h⟩ | h
  · simp [cinfo_nil h, h]
  · simp [cinfo_one h, h]
  · simp only [cinfo_two h, Option.isSome_some, true_iff]
    intro hc; simp [hc] at h

theorem cinfo_congr (h : (under q m).Perm (under q m')) : cinfo H m q = cinfo H m' q := by
  have hl := h.length_eq
  rcases len_cases (under q m) with h1 | ⟨e, h1⟩ | h1
  · rw [h1] at h
    rw [cinfo_nil h1, cinfo_nil (List.Perm.nil_eq h).symm]
  · rw [h1] at h
    rw [cinfo_one h1, cinfo_one (List.perm_singleton.1 h.symm)]
  · rw [cinfo_two h1, cinfo_two (by omega), hl, sh_perm H h]

/-- Complete information turns into the canonical child record. -/
theorem cinfo_intoChild {c : ChildInfo} (h : cinfo H m q = some c) :
    ∃ ch, c.intoChild H w = .ok ch ∧ canonChild H m (fun _ => w) q = some ch := by
  rcases len_cases (under q m) with h1 | ⟨e, h1⟩ | h1
  · simp [cinfo_nil h1] at h
  · rw [cinfo_one h1] at h
    cases h
    exact ⟨_, rfl, canonChild_one h1⟩
  · rw [cinfo_two h1] at h
    cases h
    exact ⟨_, rfl, canonChild_two h1⟩

/-- The information recovered from a stored canonical node. -/
theorem childInfoOf_canon (hm : NodupE m) (ver : List Nibble → Version) (h : under q m ≠ []) :
    ∃ c, Restore.childInfoOf H (canonNode H m ver q) = .ok c ∧ cinfo H m q = some c := by
  rcases len_cases (under q m) with h1 | ⟨e, h1⟩ | h1
  · exact absurd h1 h
  · rw [canonNode_one h1]
    exact ⟨_, rfl, cinfo_one h1⟩
  · have hh := canonNode_hash (H := H) (ver := ver) (p := q) hm
    have hc := canonNode_leafCount (H := H) (ver := ver) (m := m) (p := q)
    rw [canonNode_two h1] at hh hc ⊢
    refine ⟨.internal (some (sh H m (pathBits q))) (under q m).length, ?_, cinfo_two h1⟩
    unfold Restore.childInfoOf
    simp only []
    rw [show (canonInternal H m ver q).hash H = .ok (sh H m (pathBits q)) from hh, ok_bind]
    rfl

theorem collect_spec (p : List Nibble) : ∀ (is : List Nibble) (cs : Children), cs.Wf →
    ∃ cs', InternalInfo.collect H w (fun j => cinfo H m (p ++ [j])) is cs = .ok cs' ∧ cs'.Wf ∧
      ∀ i, cs'.slots i = if i ∈ is ∧ (cinfo H m (p ++ [i])).isSome then canonChild H m (fun _ => w) (p ++ [i]) else cs.slots i := by
  intro is
  induction is with
  | nil => intro cs hw; exact ⟨cs, rfl, hw, fun i => by simp⟩
  | cons j is ih =>
    intro cs hw
    unfold InternalInfo.collect
    cases hj : cinfo H m (p ++ [j]) with
    | none =>
      obtain ⟨cs', h1, h2, h3⟩ := ih cs hw
      refine ⟨cs', by simpa only using h1, h2, fun i => ?_⟩
      rw [h3]
      by_cases hij : i = j
      · subst hij; simp [hj]
      · simp [hij]
    | some c =>
      obtain ⟨ch, c1, c2⟩ := cinfo_intoChild (w := w) hj
      obtain ⟨cs', h1, h2, h3⟩ := ih (cs.insert j ch) (hw.insert j ch)
      refine ⟨cs', ?_, h2, fun i => ?_⟩
      · simp only [c1, ok_bind]
        exact h1
      · rw [h3]
        by_cases hij : i = j
        · subst hij
          simp only [List.mem_cons, true_or, hj, Option.isSome_some, and_self, ↓reduceIte, and_true, c2, Children.insert,
            ite_self]
        · simp [hij, Children.insert]

/-- A node with complete children and at least two entries becomes the canonical internal node. -/
theorem intoInternal_full {p : List Nibble} (hp : p.length < 64) (h2 : 2 ≤ (under p m).length) :
    (fullInfo H m w p).intoInternalNode H w = .ok (⟨w, p⟩, canonInternal H m (fun _ => w) p) := by
  obtain ⟨cs, h1, hw, h3⟩ := collect_spec (H := H) (m := m) (w := w) p (List.finRange 16) Children.empty Children.Wf.empty
  unfold InternalInfo.intoInternalNode
  rw [show (fullInfo H m w p).children = fun j => cinfo H m (p ++ [j]) from rfl, h1, ok_bind]
  have hc : CanonSlots H m (fun _ => w) p cs := by
    intro i
    rw [h3]
    by_cases hs : (cinfo H m (p ++ [i])).isSome
    · simp [hs]
    · have : under (p ++ [i]) m = [] := by
        apply Decidable.byContradiction
        intro hne
        exact hs (cinfo_isSome.2 hne)
      simp only [hs, Bool.false_eq_true, and_false, ↓reduceIte]
      rw [canonChild_nil this]
      rfl
  rw [new_canon hc hp hw h2, ok_bind]
  rfl

/-- With a single entry below, the conversion panics. -/
theorem intoInternal_single {p : List Nibble} (hp : p.length < 64) {e} (h1 : under p m = [e]) :
    ∃ s, (fullInfo H m w p).intoInternalNode H w = .error (.panic s) := by
  obtain ⟨cs, h1', hw, h3⟩ := collect_spec (H := H) (m := m) (w := w) p (List.finRange 16) Children.empty Children.Wf.empty
  unfold InternalInfo.intoInternalNode
  rw [show (fullInfo H m w p).children = fun j => cinfo H m (p ++ [j]) from rfl, h1', ok_bind]
  have hc : CanonSlots H m (fun _ => w) p cs := by
    intro i
    rw [h3]
    by_cases hs : (cinfo H m (p ++ [i])).isSome
    · simp [hs]
    · have : under (p ++ [i]) m = [] := by
        apply Decidable.byContradiction
        intro hne
        exact hs (cinfo_isSome.2 hne)
      simp only [hs, Bool.false_eq_true, and_false, ↓reduceIte]
      rw [canonChild_nil this]
      rfl
  have hlen : cs.numChildren = cs.iter.length := by rw [hw, iter_length]
  have hp' := under_perm hc hp
  rw [h1] at hp'
  unfold InternalNode.new
  match hi : cs.iter with
  | [] =>
    rw [hi] at hlen
    simp only [List.length_nil] at hlen
    rw [if_pos hlen]
    exact ⟨_, rfl⟩
  | [a] =>
    rw [hi] at hlen
    simp only [List.length_singleton] at hlen
    rw [if_neg (by omega), if_pos hlen]
    have hv : cs.values = [a.2] := by rw [values_eq, hi]; rfl
    have he := kids_canon hc (s := 0) (w := 16) (e := a) (by rw [kids_full, hi]; simp)
    have hee := canonChild_some he
    have hl : a.2.isLeaf = true := by
      rw [hee.2.2.2.1]
      rw [hi] at hp'
      simp at hp'
      rw [← hp']; rfl
    simp only [hv, hl, ↓reduceIte]
    exact ⟨_, rfl⟩
  | a :: b :: t =>
    rw [hi] at hp'
    have hal : ∀ x ∈ cs.iter, under (p ++ [x.1]) m ≠ [] := by
      intro x hx
      exact (canonChild_some (kids_canon hc (s := 0) (w := 16) (e := x) (by rw [kids_full]; exact hx))).2.2.2.2
    have ha := one_le_length (hal a (by rw [hi]; simp))
    have hb := one_le_length (hal b (by rw [hi]; simp))
    have := hp'.length_eq
    simp at this
    omega

end
end Jmt
