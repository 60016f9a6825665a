import Verif.Proofs.Insert
/-!
# `insert_at` on a canonical tree: the recursive case analysis
-/
namespace Jmt
open Spec (Entry)

theorem bind_ok_inv {α β : Type} {x : Except Err α} {f : α → Except Err β} {b : β}
    (h : (x >>= f) = .ok b) : ∃ a, x = .ok a ∧ f a = .ok b := by
  cases x with
  | error e => cases h
  | ok a => exact ⟨a, rfl, h⟩

@[simp] theorem ok_bind {ε α β : Type} (a : α) (f : α → Except ε β) :
    ((Except.ok a : Except ε α) >>= f) = f a := rfl

section
variable {C : Ctx} {tc tc' : TreeCache} {m m' : List Entry} {ver ver' ver1 : List Nibble → Version}
  {p q : List Nibble}

def setVer (ver : List Nibble → Version) (p : List Nibble) (v : Version) : List Nibble → Version :=
  fun q => if q = p then v else ver q

@[simp] theorem setVer_self {v} : setVer ver p v p = v := by simp [setVer]
theorem setVer_ne {v} (h : q ≠ p) : setVer ver p v q = ver q := by simp [setVer, h]

theorem snoc_ne {n : Nibble} : p ++ [n] ≠ p := by
  intro h; have := congrArg List.length h; simp at this

theorem SubInv.setVer {n : Nibble} {v} (h : SubInv C tc m ver (p ++ [n])) :
    SubInv C tc m (setVer ver p v) (p ++ [n]) := by
  refine h.congr (fun _ _ => AgreeAt.refl _ _) (List.Perm.refl _) (fun q hq => setVer_ne ?_)
  rintro rfl; exact not_snoc_prefix_self hq

/-- Rewriting the internal node at `p` once its children are those of `m'`. -/
theorem rewriteInternal_spec (hm : NodupE m) (hm' : NodupE m')
    (hold : PInv C tc m ver p True) (h2 : 2 ≤ (under p m).length)
    (ci : CountInv C tc) (hb : tc.base = C.B)
    (hsub : ∀ j, SubInv C tc m' ver1 (p ++ [j])) (hne : under p m' ≠ [])
    {cs : Children} (hcs : CanonSlots C.H m' ver1 p cs) (hwf : cs.Wf) (pf : Option SMProof) :
    ∃ tc2, rewriteInternal C.V ⟨ver p, p⟩ cs pf tc
        = .ok (.updated ⟨C.V, p⟩ (canonNode C.H m' (setVer ver1 p C.V) p), pf, tc2) ∧
      Same tc tc2 ∧ CountInv C tc2 ∧ (∀ q, ¬ p <+: q → AgreeAt tc tc2 q) ∧
      SubInv C tc2 m' (setVer ver1 p C.V) p := by
  have hp : p.length < 64 := under_length_lt_of_two hm h2
  have hcn : canonNode C.H m' (setVer ver1 p C.V) p = canonNode C.H m' ver1 p :=
    canonNode_verAt _ _ _ _ _ (fun q hq => setVer_ne hq)
  have hf : false = (canonNode C.H m ver p).isLeaf := by
    rw [canonNode_two h2]; rfl
  obtain ⟨tcd, hd1, hd2, hd3, hd4, hd5⟩ := deleteNode_spec hold trivial ci false hf
  have hsubd : ∀ j, SubInv C tcd m' ver1 (p ++ [j]) := fun j =>
    (hsub j).frame (fun q hq => hd4 q (by rintro rfl; exact not_snoc_prefix_self hq))
  have hbd : tcd.base = C.B := hd2.base.trans hb
  -- number of entries against number of children
  have hperm := under_perm hcs hp
  unfold rewriteInternal
  rw [hd1]
  simp only [ok_bind, NodeKey.setVersion]
  -- common ending: two or more entries
  have ending : 2 ≤ (under p m').length → ∃ tc2,
      (do let inode ← InternalNode.new cs
          let tc ← tcd.putNode ⟨C.V, p⟩ (.internal inode)
          .ok (.updated ⟨C.V, p⟩ (.internal inode), pf, tc) : InsertRes)
        = .ok (.updated ⟨C.V, p⟩ (canonNode C.H m' (setVer ver1 p C.V) p), pf, tc2) ∧
      Same tc tc2 ∧ CountInv C tc2 ∧ (∀ q, ¬ p <+: q → AgreeAt tc tc2 q) ∧
      SubInv C tc2 m' (setVer ver1 p C.V) p := by
    intro h2'
    rw [new_canon hcs hp hwf h2']
    obtain ⟨tc2, hp1, hp2, hp3, hp4, hp5⟩ :=
      putNode_spec (hd5 m' ver1) hd3 (.internal (canonInternal C.H m' ver1 p))
    simp only [ok_bind, hp1]
    refine ⟨tc2, ?_, hd2.trans hp2, hp3, ?_, ?_⟩
    · rw [hcn, canonNode_two h2']
    · intro q hq
      have : q ≠ p := by rintro rfl; exact hq (List.prefix_refl _)
      exact (hd4 q this).trans (hp4 q this)
    · refine SubInv.mk2 (hp5 _ _ setVer_self (by rw [hcn, canonNode_two h2'])) h2' (fun n => ?_)
      refine SubInv.setVer ((hsubd n).frame (fun q hq => hp4 q ?_))
      rintro rfl; exact not_snoc_prefix_self hq
  match hit : cs.iter with
  | [] =>
    rw [hit] at hperm
    exact absurd (List.Perm.eq_nil hperm) hne
  | [(n, c)] =>
    have hsl : cs.slots n = some c := (mem_iter (e := (n, c))).1 (by rw [hit]; simp)
    have hcc := canonChild_some ((hcs n) ▸ hsl : canonChild C.H m' ver1 (p ++ [n]) = some c)
    obtain ⟨-, hcv, -, hcl, hcne⟩ := hcc
    have hpn : (under p m').Perm (under (p ++ [n]) m') := by
      rw [hit] at hperm; simpa using hperm
    by_cases hleaf : c.isLeaf = true
    · have hone : (under (p ++ [n]) m').length = 1 := hcl.1 hleaf
      have hone' : (under p m').length = 1 := hpn.length_eq.trans hone
      obtain ⟨e, he⟩ := List.length_eq_one_iff.1 hone
      have he' : under p m' = [e] := by rw [he] at hpn; exact List.perm_singleton.1 hpn
      have htop := (hsubd n).top hcne
      simp only [hleaf, ↓reduceIte, genChild_ok hp, hcv, ok_bind, htop.getNode trivial hbd]
      obtain ⟨tce, he1, he2, he3, he4, he5⟩ := deleteNode_spec htop trivial hd3 true
        (by rw [canonNode_one he]; rfl)
      have hab : PInv C tce m' ver1 p False :=
        (hd5 m' ver1).frame (he4 p (Ne.symm snoc_ne))
      obtain ⟨tc2, hp1, hp2, hp3, hp4, hp5⟩ :=
        putNode_spec hab he3 (canonNode C.H m' ver1 (p ++ [n]))
      simp only [he1, ok_bind, hp1]
      have hcn' : canonNode C.H m' (setVer ver1 p C.V) p = canonNode C.H m' ver1 (p ++ [n]) := by
        rw [hcn, canonNode_one he', canonNode_one he]
      refine ⟨tc2, ?_, (hd2.trans he2).trans hp2, hp3, ?_, ?_⟩
      · rw [hcn']
      · intro q hq
        have h1 : q ≠ p := by rintro rfl; exact hq (List.prefix_refl _)
        have h2 : q ≠ p ++ [n] := by rintro rfl; exact hq (List.prefix_append _ _)
        exact ((hd4 q h1).trans (he4 q h2)).trans (hp4 q h1)
      · refine SubInv.mk1 (hp5 _ _ setVer_self hcn') hone' (fun q hq hqp => ?_)
        refine Absent.frame (tc := tce) ?_ (hp4 q hqp)
        by_cases hqn : q = p ++ [n]
        · subst hqn; exact he5
        · refine Absent.frame (tc := tcd) ?_ (he4 q hqn)
          rcases path_cases hq with h | ⟨j, hj⟩
          · exact absurd h hqp
          · by_cases hjn : j = n
            · subst hjn
              exact (hsubd j).absent_below (by omega) hj hqn
            · have hjnil : cs.slots j = none := by
                cases hs : cs.slots j with
                | none => rfl
                | some d =>
                  have : (j, d) ∈ cs.iter := (mem_iter (e := (j, d))).2 hs
                  rw [hit] at this
                  simp at this
                  exact absurd this.1 hjn
              have : under (p ++ [j]) m' = [] := by
                apply Decidable.byContradiction
                intro hc
                have := (canonChild_isSome (H := C.H) (ver := ver1)).2 hc
                rw [← hcs j, hjnil] at this
                simp at this
              exact (hsubd j).absent_nil this hj
    · simp only [hleaf, Bool.false_eq_true, ↓reduceIte]
      apply ending
      have h1 := one_le_length hne
      have : (under p m').length ≠ 1 := by
        rw [hpn.length_eq]; exact fun h => hleaf (hcl.2 h)
      omega
  | a :: b :: t =>
    simp only
    apply ending
    have := range_many hcs hp rng_4_0 (by rw [← hit, ← kids_full])
    rwa [hb_four, List.append_nil] at this

theorem not_prefix_other {i j : Nibble} {l : List Nibble}
    (hk : p ++ [i] <+: l) (hji : j ≠ i) : ¬ p ++ [j] <+: l := by
  intro h
  have := List.prefix_of_prefix_length_le h hk (by simp)
  have := this.eq_of_length (by simp)
  simp at this
  exact hji this

/-- The chain of single-child internal nodes above a fork. -/
theorem chainUp_spec (hm' : NodupE m') (n : Nat) : ∀ (c : List Nibble) (tc : TreeCache),
    c.length = n → SubInv C tc m' ver1 (p ++ c) → 2 ≤ (under (p ++ c) m').length →
    (∀ q, p <+: q → ver1 q = C.V) →
    (∀ q, p <+: q → ¬ p ++ c <+: q → Absent C tc q) →
    (∀ e ∈ under p m', p ++ c <+: e.1.nibbles) → CountInv C tc →
    ∃ tc2, chainUp C.H C.V n tc ⟨C.V, p ++ c⟩ (p ++ c) (canonInternal C.H m' ver1 (p ++ c))
        = .ok (⟨C.V, p⟩, canonInternal C.H m' ver1 p, tc2) ∧
      Same tc tc2 ∧ CountInv C tc2 ∧ (∀ q, ¬ p <+: q → AgreeAt tc tc2 q) ∧
      SubInv C tc2 m' ver1 p := by
  induction n with
  | zero =>
    intro c tc hl hs _ _ _ _ ci
    have : c = [] := List.eq_nil_of_length_eq_zero hl
    subst this
    rw [List.append_nil] at *
    exact ⟨tc, rfl, Same.refl _, ci, fun q _ => AgreeAt.refl _ _, hs⟩
  | succ n ih =>
    intro c tc hl hs h2 hv hab hall ci
    rcases List.eq_nil_or_concat c with rfl | ⟨c', nib, rfl⟩
    · simp at hl
    have hl' : c'.length = n := by simpa using hl
    have hpc : p ++ (c' ++ [nib]) = (p ++ c') ++ [nib] := by simp
    simp only [List.concat_eq_append] at *
    rw [hpc] at *
    have hp2 : 2 ≤ (under (p ++ c') m').length :=
      Nat.le_trans h2 (length_under_le (List.prefix_append _ _) m')
    have hlen : (p ++ c').length < 64 := under_length_lt_of_two hm' hp2
    have hlen' : ((p ++ c') ++ [nib]).length < 64 := under_length_lt_of_two hm' h2
    have hother : ∀ j, j ≠ nib → under ((p ++ c') ++ [j]) m' = [] := by
      intro j hj
      rw [List.eq_nil_iff_forall_not_mem]
      intro e he
      have h1 := mem_under.1 he
      have h3 := hall e (mem_under.2 ⟨h1.1, (List.prefix_append _ _).trans
        ((List.prefix_append _ _).trans h1.2)⟩)
      exact not_prefix_other h3 hj h1.2
    have hslots : CanonSlots C.H m' ver1 (p ++ c') (Children.empty.insert nib
        ⟨sh C.H m' (pathBits ((p ++ c') ++ [nib])), C.V,
          (canonInternal C.H m' ver1 ((p ++ c') ++ [nib])).nodeType⟩) := by
      intro j
      by_cases hj : j = nib
      · subst hj
        rw [canonChild_two h2, hv _ (by rw [List.append_assoc]; exact List.prefix_append _ _)]
        simp [Children.insert]
        rfl
      · rw [canonChild_nil (hother j hj)]
        simp [Children.insert, hj, Children.empty]
    have habs : Absent C tc (p ++ c') := hab _ (List.prefix_append _ _) not_snoc_prefix_self
    obtain ⟨tc2, hp1, hp2', hp3, hp4, hp5⟩ :=
      putNode_spec (habs m' ver1) ci (.internal (canonInternal C.H m' ver1 (p ++ c')))
    have hsub2 : SubInv C tc2 m' ver1 (p ++ c') := by
      refine SubInv.mk2 (hp5 m' ver1 (hv _ (List.prefix_append _ _)) (canonNode_two hp2)) hp2
        (fun j => ?_)
      by_cases hj : j = nib
      · subst hj
        refine hs.frame (fun q hq => hp4 q ?_)
        rintro rfl; exact not_snoc_prefix_self hq
      · refine SubInv.mk0 (hother j hj) (fun q hq => ?_)
        refine Absent.frame (tc := tc) (hab q ?_ ?_) (hp4 q ?_)
        · exact (List.prefix_append _ _).trans ((List.prefix_append _ _).trans hq)
        · intro hq'; exact not_prefix_other hq' hj hq
        · rintro rfl; exact not_snoc_prefix_self hq
    obtain ⟨tc3, h31, h32, h33, h34, h35⟩ := ih c' tc2 hl' hsub2 hp2 hv
      (by
        intro q hq hnq
        refine Absent.frame (tc := tc) (hab q hq ?_) (hp4 q ?_)
        · intro h; exact hnq ((List.prefix_append _ _).trans h)
        · rintro rfl; exact hnq (List.prefix_refl _))
      (by
        intro e he
        exact (List.prefix_append _ _).trans (hall e he)) hp3
    refine ⟨tc3, ?_, hp2'.trans h32, h33, ?_, h35⟩
    · unfold chainUp
      simp only [List.getLast?_append, List.getLast?_singleton, Option.some_or,
        List.dropLast_concat, internal_hash_canon canonSlots_self hlen', ok_bind,
        new_canon hslots hlen (Children.Wf.empty.insert _ _) hp2, hp1]
      exact h31
    · intro q hq
      exact (hp4 q (by rintro rfl; exact hq (List.prefix_append _ _))).trans (h34 q hq)

theorem skipCommonPrefix_spec {α : Type} [DecidableEq α] (xs ys : List α) :
    ∃ c xs' ys', skipCommonPrefix xs ys = (c.length, xs', ys') ∧ xs = c ++ xs' ∧ ys = c ++ ys' ∧
      (∀ a s b t, xs' = a :: s → ys' = b :: t → a ≠ b) := by
  induction xs generalizing ys with
  | nil => exact ⟨[], [], ys, by unfold skipCommonPrefix; rfl, rfl, rfl, by simp⟩
  | cons x xs ih =>
    cases ys with
    | nil => exact ⟨[], x :: xs, [], by unfold skipCommonPrefix; rfl, rfl, rfl, by simp⟩
    | cons y ys =>
      by_cases h : x = y
      · subst h
        obtain ⟨c, xs', ys', h1, h2, h3, h4⟩ := ih ys
        refine ⟨x :: c, xs', ys', ?_, by rw [h2]; rfl, by rw [h3]; rfl, h4⟩
        simp [skipCommonPrefix, h1]
      · refine ⟨[], x :: xs, y :: ys, by simp [skipCommonPrefix, h], rfl, rfl, ?_⟩
        intro a s b t h1 h2
        cases h1; cases h2; exact h

theorem skipCommonPrefix_prefix {α : Type} [DecidableEq α] (xs ys : List α) :
    skipCommonPrefix xs (xs ++ ys) = (xs.length, [], ys) := by
  induction xs with
  | nil => cases ys <;> rfl
  | cons x xs ih => simp [skipCommonPrefix, ih]

end
end Jmt
