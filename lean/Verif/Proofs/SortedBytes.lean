import Verif.Spec.Borsh
import Verif.Model.Borsh
/-!
# Strict orders, and the one ascending listing of a set
-/
namespace Jmt.Borsh

/-- A strict total order given as a Boolean function. -/
structure Strict {α : Type} (lt : α → α → Bool) : Prop where
  irrefl : ∀ a, lt a a = false
  trans : ∀ a b c, lt a b = true → lt b c = true → lt a c = true
  total : ∀ a b, a ≠ b → lt a b = true ∨ lt b a = true

theorem strict_nat : Strict (fun a b : Nat => decide (a < b)) where
  irrefl a := by simp
  trans a b c h1 h2 := by simp only [decide_eq_true_eq] at *; omega
  total a b h := by simp only [decide_eq_true_eq]; omega

theorem strict_bytes : Strict (fun a b : List UInt8 => decide (a < b)) where
  irrefl a := by simp only [decide_eq_false_iff_not]; exact List.lt_irrefl a
  trans a b c h1 h2 := by simp only [decide_eq_true_eq] at *; exact List.lt_trans h1 h2
  total a b h := by
    simp only [decide_eq_true_eq]
    rcases List.le_total a b with h1 | h1
    · exact Or.inl (Classical.byContradiction fun hc => h (List.le_antisymm h1 (List.not_lt.1 hc)))
    · exact Or.inr (Classical.byContradiction fun hc => h (List.le_antisymm (List.not_lt.1 hc) h1))

/-- First by `f`, then by `g`. -/
theorem Strict.lex {α β γ : Type} [DecidableEq β] {lb : β → β → Bool} {lc : γ → γ → Bool} (hb : Strict lb) (hc : Strict lc) (f : α → β) (g : α → γ)
    (hinj : ∀ a b, f a = f b → g a = g b → a = b) : Strict (fun a b => lb (f a) (f b) || (decide (f a = f b) && lc (g a) (g b))) where
  irrefl a := by simp [hb.irrefl, hc.irrefl]
  trans a b c h1 h2 := by
    simp only [Bool.or_eq_true, Bool.and_eq_true, decide_eq_true_eq] at *
    rcases h1 with h1 | ⟨h1, h1'⟩
    · rcases h2 with h2 | ⟨h2, -⟩
      · exact Or.inl (hb.trans _ _ _ h1 h2)
      · rw [← h2]; exact Or.inl h1
    · rcases h2 with h2 | ⟨h2, h2'⟩
      · rw [h1]; exact Or.inl h2
      · exact Or.inr ⟨h1.trans h2, hc.trans _ _ _ h1' h2'⟩
  total a b h := by
    simp only [Bool.or_eq_true, Bool.and_eq_true, decide_eq_true_eq]
    by_cases hf : f a = f b
    · rcases hc.total (g a) (g b) (fun hg => h (hinj a b hf hg)) with h1 | h1
      · exact Or.inl (Or.inr ⟨hf, h1⟩)
      · exact Or.inr (Or.inr ⟨hf.symm, h1⟩)
    · rcases hb.total _ _ hf with h1 | h1
      · exact Or.inl (Or.inl h1)
      · exact Or.inr (Or.inl h1)

theorem pathLt_strict : Strict pathLt :=
  strict_nat.lex strict_bytes NibblePath.numNibbles NibblePath.bytes (fun a b h1 h2 => by cases a; cases b; simp_all)

theorem keyLt_strict : Strict keyLt :=
  strict_nat.lex pathLt_strict PackedKey.version PackedKey.path (fun a b h1 h2 => by cases a; cases b; simp_all)

theorem staleLt_strict : Strict staleLt :=
  strict_nat.lex keyLt_strict Prod.fst Prod.snd (fun a b h1 h2 => Prod.ext h1 h2)

theorem valueLt_strict : Strict valueLt :=
  strict_nat.lex strict_bytes Prod.fst (fun a : Version × KeyHash => a.2.val) (fun a b h1 h2 => Prod.ext h1 (Subtype.ext h2))

section
variable {α κ : Type} {lt : κ → κ → Bool} {key : α → κ}

theorem ascending_iff (h : Strict lt) : ∀ (l : List α), ascending (fun a b => lt (key a) (key b)) l = true ↔
    l.Pairwise (fun a b => lt (key a) (key b) = true)
  | [] => by simp [ascending]
  | [a] => by simp [ascending]
  | a :: b :: l => by
    unfold ascending
    rw [Bool.and_eq_true, ascending_iff h (b :: l), List.pairwise_cons (a := a)]
    refine and_congr_left fun hp => ⟨fun hab c hc => ?_, fun hall => hall b List.mem_cons_self⟩
    rcases List.mem_cons.1 hc with rfl | hc
    · exact hab
    · exact h.trans _ _ _ hab ((List.pairwise_cons.1 hp).1 c hc)

theorem insert_exists (h : Strict lt) (a : α) : ∀ (l : List α), l.Pairwise (fun a b => lt (key a) (key b) = true) →
    (∀ b ∈ l, key a ≠ key b) → ∃ l', (a :: l).Perm l' ∧ l'.Pairwise (fun a b => lt (key a) (key b) = true)
  | [], _, _ => ⟨[a], List.Perm.refl _, List.pairwise_singleton _ _⟩
  | b :: l, hp, hne => by
    rcases h.total (key a) (key b) (hne b List.mem_cons_self) with hab | hba
    · refine ⟨a :: b :: l, List.Perm.refl _, List.pairwise_cons.2 ⟨fun c hc => ?_, hp⟩⟩
      rcases List.mem_cons.1 hc with rfl | hc
      · exact hab
      · exact h.trans _ _ _ hab ((List.pairwise_cons.1 hp).1 c hc)
    · obtain ⟨l', h1, h2⟩ := insert_exists h a l (List.pairwise_cons.1 hp).2 (fun c hc => hne c (List.mem_cons_of_mem _ hc))
      refine ⟨b :: l', (List.Perm.swap b a l).trans (h1.cons b), List.pairwise_cons.2 ⟨fun c hc => ?_, h2⟩⟩
      rcases List.mem_cons.1 (h1.mem_iff.2 hc) with rfl | hc
      · exact hba
      · exact (List.pairwise_cons.1 hp).1 c hc

/-- Entries with different keys have an ascending listing ... -/
theorem sort_exists (h : Strict lt) : ∀ (l : List α), (l.map key).Nodup →
    ∃ l', l.Perm l' ∧ l'.Pairwise (fun a b => lt (key a) (key b) = true)
  | [], _ => ⟨[], List.Perm.refl _, List.Pairwise.nil⟩
  | a :: l, hn => by
    rw [List.map_cons, List.nodup_cons] at hn
    obtain ⟨l1, h1, h2⟩ := sort_exists h l hn.2
    obtain ⟨l2, h3, h4⟩ := insert_exists h a l1 h2 (fun b hb hc => hn.1 (List.mem_map.2 ⟨b, h1.mem_iff.2 hb, hc.symm⟩))
    exact ⟨l2, (h1.cons a).trans h3, h4⟩

/-- ... and only one. -/
theorem sort_unique (h : Strict lt) : ∀ (l l' : List α), l.Perm l' → l.Pairwise (fun a b => lt (key a) (key b) = true) →
    l'.Pairwise (fun a b => lt (key a) (key b) = true) → l = l'
  | [], l', hp, _, _ => (List.nil_perm.1 hp).symm
  | a :: l, [], hp, _, _ => absurd (List.perm_nil.1 hp) (by simp)
  | a :: l, b :: l', hp, h1, h2 => by
    have hab : a = b := by
      rcases List.mem_cons.1 (hp.mem_iff.1 List.mem_cons_self) with hc | hc
      · exact hc
      · rcases List.mem_cons.1 (hp.mem_iff.2 List.mem_cons_self) with hd | hd
        · exact hd.symm
        · have g1 := (List.pairwise_cons.1 h2).1 a hc
          have g2 := (List.pairwise_cons.1 h1).1 b hd
          have := h.trans _ _ _ g1 g2
          rw [h.irrefl] at this
          cases this
    subst hab
    rw [sort_unique h l l' (List.Perm.cons_inv hp) (List.pairwise_cons.1 h1).2 (List.pairwise_cons.1 h2).2]

end
end Jmt.Borsh
