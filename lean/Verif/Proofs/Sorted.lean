import Verif.Proofs.IterNew
/-!
# Sorting the entries of a readable version
-/
namespace Jmt
open Spec (Entry)

/-- Key order on entries. -/
def entryLe (a b : Entry) : Bool := decide (a.1.val ≤ b.1.val)

/-- The entries in key order. -/
def sortE (m : List Entry) : List Entry := m.mergeSort entryLe

theorem sortE_perm (m : List Entry) : (sortE m).Perm m := List.mergeSort_perm m entryLe

theorem sortE_sorted {m : List Entry} (hm : NodupE m) : SortedE (sortE m) := by
  have h1 : (sortE m).Pairwise (fun a b => entryLe a b = true) :=
    List.pairwise_mergeSort
      (fun a b c h1 h2 => by
        simp only [entryLe, decide_eq_true_eq] at *; exact List.le_trans h1 h2)
      (fun a b => by
        simp only [entryLe, Bool.or_eq_true, decide_eq_true_eq]; exact List.le_total _ _) m
  have h2 : NodupE (sortE m) := by
    unfold NodupE; rw [((sortE_perm m).map Prod.fst).nodup_iff]; exact hm
  have h3 : (sortE m).Pairwise (fun a b => a.1 ≠ b.1) := List.pairwise_map.1 h2
  refine (h1.and h3).imp ?_
  rintro a b ⟨hab, hne⟩
  rw [nibbles_lt]
  simp only [entryLe, decide_eq_true_eq] at hab
  apply Decidable.byContradiction
  intro hc
  exact hne (Subtype.ext (List.le_antisymm hab hc))

section
variable {H : Hasher} {v : Version} {m m' : List Entry} {ver : List Nibble → Version}

theorem under_perm_all (h : m.Perm m') (q : List Nibble) : (under q m).Perm (under q m') := h.filter _

theorem pres_perm (h : m.Perm m') {p q : List Nibble} (hp : pres m p q) : pres m' p q := by
  unfold pres at *
  have h1 := (under_perm_all h q).length_eq
  have h2 := (under_perm_all h q.dropLast).length_eq
  refine ⟨hp.1, fun hc => hp.2.1 ?_, ?_⟩
  · rw [hc] at h1; exact List.length_eq_zero_iff.1 h1
  · rw [← h2]; exact hp.2.2

theorem TreeAt.perm {B : NodeBase} (t : TreeAt H B v m ver) (h : m.Perm m') : TreeAt H B v m' ver := by
  have hc : ∀ q, canonNode H m' ver q = canonNode H m ver q := fun q =>
    canonNode_congr (under_perm_all h.symm q) (fun _ _ _ => rfl)
  refine ⟨by rw [hc]; exact t.root, fun q h1 h2 => ?_⟩
  rw [hc]; exact t.node q h1 (pres_perm h.symm h2)

end

/-- A readable version as a sorted list, with what the iterator needs. -/
theorem ReadTree.sorted {H : Hasher} {R : Reader} {v : Version} {mp : Spec.Map} {es : List Entry}
    (r : ReadTree H R v mp es) : ∃ ver, NodupE (sortE es) ∧ SortedE (sortE es) ∧
      TreeAt H R.getNodeOption v (sortE es) ver ∧
      ValsAt R v (sortE es) ver (fun e => (mp e.1).getD []) ∧
      Spec.Lists H mp (sortE es) := by
  obtain ⟨ver, t, hl⟩ := r.leaves
  have hp := sortE_perm es
  have hsome : ∀ e, e ∈ es → mp e.1 = some ((mp e.1).getD []) := by
    intro e he
    obtain ⟨x, hx, -⟩ := (r.lists.mem e.1 e.2).1 he
    rw [hx]; rfl
  have hnd : NodupE (sortE es) := by
    unfold NodupE; rw [(hp.map Prod.fst).nodup_iff]; exact r.nodup
  refine ⟨ver, hnd, sortE_sorted r.nodup, t.perm hp.symm, ⟨?_, ?_⟩, ⟨hnd, ?_⟩⟩
  · intro e he
    have : e ∈ es := hp.mem_iff.1 (by rw [he]; simp)
    unfold Reader.getValue
    rw [r.present e.1 _ (hsome e this)]
  · intro q e h1 h2 h3
    have he : e ∈ under q (sortE es) := by rw [h3]; simp
    have : e ∈ es := hp.mem_iff.1 (mem_under.1 he).1
    have h3' : under q es = [e] := by
      have := under_perm_all hp q
      rw [h3] at this
      exact List.perm_singleton.1 this.symm
    unfold Reader.getValue
    rw [hl q e h1 (pres_perm hp h2) h3', hsome e this]
    simp
  · intro k vh
    rw [hp.mem_iff, r.lists.mem]

end Jmt
