import Verif.Proofs.Put
/-!
# `insert_at` on a canonical tree
-/
namespace Jmt
open Spec (Entry)

/-! ### The entry list after a write -/

theorem mem_upd {m : List Entry} {k x} {e : Entry} :
    e ∈ upd m k x ↔ (e.1 = k ∧ x = some e.2) ∨ (e ∈ m ∧ e.1 ≠ k) := by
  unfold upd
  cases x with
  | none => simp
  | some v =>
    obtain ⟨a, b⟩ := e
    simp only [List.mem_append, List.mem_singleton, List.mem_filter, decide_eq_true_eq,
      Prod.mk.injEq, Option.some.injEq]
    constructor
    · rintro (⟨h1, h2⟩ | h)
      · exact .inl ⟨h1, h2.symm⟩
      · exact .inr h
    · rintro (⟨h1, h2⟩ | h)
      · exact .inl ⟨h1, h2.symm⟩
      · exact .inr h

theorem NodupE.upd {m : List Entry} (h : NodupE m) (k x) : NodupE (upd m k x) := by
  unfold NodupE Jmt.upd
  cases x with
  | none => exact h.filter _
  | some v =>
    simp only [List.cons_append, List.nil_append, List.map_cons, List.nodup_cons]
    refine ⟨?_, h.filter _⟩
    simp

theorem ub_upd_of_prefix {m : List Entry} {k x} {b : List Bool} (hb : b <+: keyBits k) :
    ub b (upd m k x) = upd (ub b m) k x := by
  unfold ub upd
  have hb' : b.isPrefixOf (keyBits k) = true := by simpa using hb
  rw [List.filter_append, List.filter_filter, List.filter_filter]
  congr 1
  · cases x with
    | none => rfl
    | some v => simp [hb']
  · congr 1; funext e; exact Bool.and_comm _ _

theorem ub_upd_of_not_prefix {m : List Entry} {k x} {b : List Bool} (hb : ¬ b <+: keyBits k) :
    ub b (upd m k x) = ub b m := by
  unfold ub upd
  have hb' : b.isPrefixOf (keyBits k) = false := by
    rw [Bool.eq_false_iff]; simpa using hb
  rw [List.filter_append, List.filter_filter]
  have h2 : List.filter (fun e : Entry => b.isPrefixOf (keyBits e.1) && decide (e.1 ≠ k)) m
      = List.filter (fun e : Entry => b.isPrefixOf (keyBits e.1)) m := by
    apply List.filter_congr
    intro e _
    by_cases he : e.1 = k
    · rw [he, hb']; rfl
    · simp [he]
  rw [h2]
  cases x with
  | none => rfl
  | some v => simp [hb']

theorem under_upd_of_prefix {m : List Entry} {k x} {p : List Nibble} (h : p <+: k.nibbles) :
    under p (upd m k x) = upd (under p m) k x :=
  ub_upd_of_prefix (pathBits_prefix.2 h)

theorem under_upd_of_not_prefix {m : List Entry} {k x} {p : List Nibble} (h : ¬ p <+: k.nibbles) :
    under p (upd m k x) = under p m :=
  ub_upd_of_not_prefix (fun hc => h (pathBits_prefix.1 hc))

theorem upd_none_of_not_mem {m : List Entry} {k} (h : ∀ e ∈ m, e.1 ≠ k) : upd m k none = m := by
  unfold upd
  simp only [List.nil_append]
  rw [List.filter_eq_self]
  intro e he; simpa using h e he

/-- A write changes the number of entries by at most one. -/
theorem length_le_upd {m : List Entry} (hm : NodupE m) (k x) : m.length ≤ (upd m k x).length + 1 := by
  have h1 : m.length ≤ (m.filter (fun e => decide (e.1 ≠ k))).length + 1 := by
    clear x
    induction m with
    | nil => simp
    | cons e m ih =>
      simp only [NodupE, List.map_cons, List.nodup_cons] at hm
      by_cases he : e.1 = k
      · have : m.filter (fun e => decide (e.1 ≠ k)) = m := by
          rw [List.filter_eq_self]
          intro e' he'
          simp only [ne_eq, decide_not, Bool.not_eq_eq_eq_not, Bool.not_true,
            decide_eq_false_iff_not]
          intro h'
          exact hm.1 (List.mem_map.2 ⟨e', he', by rw [h', he]⟩)
        rw [List.filter_cons, this]; simp [he]
      · have := ih hm.2
        rw [List.filter_cons]; simp [he] at this ⊢; omega
  unfold upd
  rw [List.length_append]
  omega

/-! ### Presence and subtrees -/
section
variable {C : Ctx} {tc tc' : TreeCache} {m m' : List Entry} {ver ver' : List Nibble → Version}
  {p q : List Nibble}

theorem path_cases (h : p <+: q) : q = p ∨ ∃ n, p ++ [n] <+: q := by
  obtain ⟨t, rfl⟩ := h
  cases t with
  | nil => left; simp
  | cons n t => right; exact ⟨n, t, by simp⟩

theorem not_snoc_prefix_self {n : Nibble} : ¬ p ++ [n] <+: p := by
  intro h; have := h.length_le; simp at this; omega

theorem pres_self : pres m p p ↔ under p m ≠ [] := by
  simp [pres]

theorem pres_child {n : Nibble} (hq : p ++ [n] <+: q) (h2 : 2 ≤ (under p m).length) :
    pres m (p ++ [n]) q ↔ pres m p q := by
  have hpq : p <+: q := (List.prefix_append _ _).trans hq
  have hne : q ≠ p := by rintro rfl; exact not_snoc_prefix_self hq
  unfold pres
  simp only [hq, hpq, hne, true_and, false_or]
  constructor
  · rintro ⟨h1, rfl | h3⟩
    · exact ⟨h1, by simpa using h2⟩
    · exact ⟨h1, h3⟩
  · rintro ⟨h1, h3⟩
    exact ⟨h1, .inr h3⟩

theorem length_under_le (h : p <+: q) (m) : (under q m).length ≤ (under p m).length := by
  rw [← under_under h m]
  exact List.length_filter_le _ _

theorem under_nil_of_prefix (h : p <+: q) (hu : under p m = []) : under q m = [] := by
  have := length_under_le h m
  rw [hu] at this
  exact List.eq_nil_of_length_eq_zero (by simpa using this)

theorem prefix_dropLast (h : p <+: q) (hne : q ≠ p) : p <+: q.dropLast := by
  rcases path_cases h with h' | ⟨n, t, rfl⟩
  · exact absurd h' hne
  · rw [List.append_assoc, List.dropLast_append_of_ne_nil (by simp)]
    exact List.prefix_append _ _

theorem not_pres_below (h : p <+: q) (hne : q ≠ p) (h1 : (under p m).length ≤ 1) :
    ¬ pres m p q := by
  rintro ⟨-, -, h2 | h2⟩
  · exact hne h2
  · have := length_under_le (prefix_dropLast h hne) m
    omega

/-- Nothing is stored at or below `p`. -/
def Absent (C : Ctx) (tc : TreeCache) (q : List Nibble) : Prop := ∀ m ver, PInv C tc m ver q False

theorem PInv.toAbsent {P} (h : PInv C tc m ver q P) (hP : ¬ P) : Absent C tc q :=
  fun _ _ => h.absent hP (by simp)

theorem Absent.toPInv {P} (h : Absent C tc q) (hP : ¬ P) : PInv C tc m ver q P :=
  (h m ver).absent (by simp) hP

theorem Absent.frame (h : Absent C tc q) (ha : AgreeAt tc tc' q) : Absent C tc' q :=
  fun m ver => (h m ver).frame ha

theorem SubInv.child (h : SubInv C tc m ver p) (h2 : 2 ≤ (under p m).length) (n : Nibble) :
    SubInv C tc m ver (p ++ [n]) := by
  intro q hq
  exact (h q ((List.prefix_append _ _).trans hq)).iff (pres_child hq h2).symm

theorem SubInv.mk2 (h : PInv C tc m ver p True) (h2 : 2 ≤ (under p m).length)
    (hc : ∀ n, SubInv C tc m ver (p ++ [n])) : SubInv C tc m ver p := by
  intro q hq
  rcases path_cases hq with rfl | ⟨n, hn⟩
  · refine h.iff ⟨fun _ => pres_self.2 ?_, fun _ => trivial⟩
    intro hc; rw [hc] at h2; simp at h2
  · exact (hc n q hn).iff (pres_child hn h2)

theorem SubInv.mk1 (h : PInv C tc m ver p True) (h1 : (under p m).length = 1)
    (hc : ∀ q, p <+: q → q ≠ p → Absent C tc q) : SubInv C tc m ver p := by
  intro q hq
  by_cases hqp : q = p
  · subst hqp
    refine h.iff ⟨fun _ => pres_self.2 ?_, fun _ => trivial⟩
    intro hc; rw [hc] at h1; simp at h1
  · exact (hc q hq hqp).toPInv (not_pres_below hq hqp (by omega))

theorem SubInv.mk0 (h0 : under p m = []) (hc : ∀ q, p <+: q → Absent C tc q) :
    SubInv C tc m ver p := by
  intro q hq
  exact (hc q hq).toPInv (fun h => h.2.1 (under_nil_of_prefix hq h0))

theorem SubInv.absent_below (h : SubInv C tc m ver p) (h1 : (under p m).length ≤ 1)
    (hq : p <+: q) (hne : q ≠ p) : Absent C tc q :=
  (h q hq).toAbsent (not_pres_below hq hne h1)

theorem SubInv.absent_nil (h : SubInv C tc m ver p) (h0 : under p m = []) (hq : p <+: q) :
    Absent C tc q :=
  (h q hq).toAbsent (fun hp => hp.2.1 (under_nil_of_prefix hq h0))

theorem SubInv.top (h : SubInv C tc m ver p) (hne : under p m ≠ []) : PInv C tc m ver p True :=
  (h p (List.prefix_refl _)).iff ⟨fun _ => trivial, fun _ => pres_self.2 hne⟩

theorem SubInv.congr (h : SubInv C tc m ver p) (ha : ∀ q, p <+: q → AgreeAt tc tc' q)
    (hu : (under p m).Perm (under p m')) (hv : ∀ q, p <+: q → ver' q = ver q) :
    SubInv C tc' m' ver' p := by
  intro q hq
  refine (h q hq).congr (ha q hq) ?_ (fun _ => hv q hq) (fun _ => ?_)
  · have hq' := under_perm_of hq hu
    unfold pres
    refine and_congr_right (fun _ => and_congr ?_ ?_)
    · constructor
      · intro h1 h2; rw [h2] at hq'; exact h1 (List.Perm.eq_nil hq')
      · intro h1 h2; rw [h2] at hq'; exact h1 (List.Perm.eq_nil hq'.symm)
    · by_cases hqp : q = p
      · simp [hqp]
      · rw [(under_perm_of (prefix_dropLast hq hqp) hu).length_eq]
  · refine (canonNode_congr (under_perm_of hq hu) ?_).symm
    intro _ i _
    exact (hv _ (hq.trans (List.prefix_append _ _))).symm

theorem SubInv.frame (h : SubInv C tc m ver p) (ha : ∀ q, p <+: q → AgreeAt tc tc' q) :
    SubInv C tc' m ver p := h.congr ha (List.Perm.refl _) (fun _ _ => rfl)

/-- The node at `p` does not depend on the version assigned to `p` itself. -/
theorem canonNode_verAt (H : Hasher) (m : List Entry) (ver ver' : List Nibble → Version)
    (p : List Nibble) (h : ∀ q, q ≠ p → ver' q = ver q) :
    canonNode H m ver' p = canonNode H m ver p := by
  refine canonNode_congr (List.Perm.refl _) (fun _ i _ => h _ ?_)
  intro hc; exact not_snoc_prefix_self (n := i) (p := p) (by rw [hc]; exact List.prefix_refl _)

/-- Reading children through the cache. -/
theorem SubInv.knowsKids (h : SubInv C tc m ver p) (h2 : 2 ≤ (under p m).length)
    (hb : tc.base = C.B) : KnowsKids C.H m ver p tc.getNode := by
  intro i hi
  have := (h.child h2 i).top hi
  exact this.getNode trivial hb

end

/-! ### Child counters -/

theorem countP_change {α : Type} {l : List α} (hn : l.Nodup) {a : α} (ha : a ∈ l) {f g : α → Bool}
    (h : ∀ b, b ≠ a → f b = g b) :
    l.countP f + (if g a then 1 else 0) = l.countP g + (if f a then 1 else 0) := by
  induction l with
  | nil => simp at ha
  | cons b l ih =>
    rw [List.nodup_cons] at hn
    rw [List.countP_cons, List.countP_cons]
    rcases List.mem_cons.1 ha with rfl | ha'
    · have : l.countP f = l.countP g := by
        apply List.countP_congr
        intro c hc
        rw [h c (by rintro rfl; exact hn.1 hc)]
      omega
    · have hba : b ≠ a := by rintro rfl; exact hn.1 ha'
      have := ih hn.2 ha'
      rw [h b hba]
      omega

/-- The counter of a `Children` is right. -/
def Children.Wf (cs : Children) : Prop :=
  cs.numChildren = (List.finRange 16).countP (fun i => (cs.slots i).isSome)

theorem Children.Wf.empty : Children.empty.Wf := by
  simp [Children.Wf, Children.empty]

theorem Children.Wf.insert {cs : Children} (h : cs.Wf) (n c) : (cs.insert n c).Wf := by
  unfold Children.Wf Children.insert at *
  have := countP_change (List.nodup_finRange 16) (List.mem_finRange n)
    (f := fun i => (cs.slots i).isSome)
    (g := fun i => (if i = n then some c else cs.slots i).isSome) (by intro b hb; simp [hb])
  simp only [↓reduceIte, Option.isSome_some] at this
  simp only
  rw [h]
  cases hs : cs.slots n <;> simp [hs] at this ⊢ <;> omega

theorem Children.Wf.remove {cs : Children} (h : cs.Wf) (n) :
    ∃ cs', cs.remove n = .ok cs' ∧ cs'.Wf ∧ ∀ i, cs'.slots i = if i = n then none else cs.slots i := by
  have key : ∀ g : Nibble → Bool, (∀ b, b ≠ n → (cs.slots b).isSome = g b) → g n = false →
      cs.numChildren = (List.finRange 16).countP g + (if (cs.slots n).isSome then 1 else 0) := by
    intro g hg hn
    have := countP_change (List.nodup_finRange 16) (List.mem_finRange n)
      (f := fun i => (cs.slots i).isSome) (g := g) hg
    simp only [hn] at this
    unfold Children.Wf at h
    rw [h]
    simpa using this
  unfold Children.remove
  rw [if_neg]
  · refine ⟨_, rfl, ?_, fun _ => rfl⟩
    unfold Children.Wf
    simp only
    rw [key (fun i => (if i = n then none else cs.slots i).isSome) (by intro b hb; simp [hb])
      (by simp)]
    split <;> simp
  · have := key (fun i => (if i = n then none else cs.slots i).isSome) (by intro b hb; simp [hb])
      (by simp)
    rw [this]
    cases hs : cs.slots n <;> simp

theorem canonChildren_wf {H m ver p} : (canonInternal H m ver p).children.Wf := rfl

end Jmt
