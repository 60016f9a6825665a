import Verif.Proofs.Ics23Tree
/-!
# Rightmost, leftmost and adjacent paths of the canonical tree
-/
namespace Jmt
open Spec (Entry)

variable {H : Hasher} {m : List Entry} {k : KeyHash}

/-- Steps that keep to the side `c`, or past an empty sibling. -/
def Most (c : Bool) (l : List (Bool × Digest)) : Prop := ∀ p ∈ l, p.1 = c ∨ p.2 = placeholder

/-- `k'` lies beyond `k` on the side `c`. -/
def Beyond (c : Bool) (k k' : KeyHash) : Prop := if c then k.val < k'.val else k'.val < k.val

theorem lt_at {b : List Bool} {k k' : KeyHash} (h : b ++ [false] <+: keyBits k) (h' : b ++ [true] <+: keyBits k') :
    k.val < k'.val := by
  obtain ⟨t, ht⟩ := h
  obtain ⟨u, hu⟩ := h'
  rw [← keyBits_lt, ← ht, ← hu, List.append_assoc, List.append_assoc]
  exact append_lt _ (List.cons_lt_cons_iff.2 (.inl (by decide)))

theorem beyond_at {c : Bool} {b : List Bool} {k k' : KeyHash} (h : b ++ [!c] <+: keyBits k) (h' : b ++ [c] <+: keyBits k') :
    Beyond c k k' := by
  cases c
  · exact lt_at h' h
  · exact lt_at h h'

theorem Beyond.asymm {c : Bool} {k k' : KeyHash} (h : Beyond c k k') : ¬ Beyond c k' k := by
  unfold Beyond at *
  cases c
  · exact List.lt_asymm h
  · exact List.lt_asymm h

theorem Beyond.irrefl {c : Bool} {k : KeyHash} : ¬ Beyond c k k := fun h => h.asymm h

/-- The next bit of an entry below `b`. -/
theorem next_bit {b : List Bool} (hb : b.length < 256) {e : Entry} (he : e ∈ ub b m) :
    ∃ y, e ∈ ub (b ++ [y]) m ∧ b ++ [y] <+: keyBits e.1 := by
  have h := mem_ub.1 he
  have h2 : b ++ [Spec.bit e.1 b.length] <+: keyBits e.1 := (prefix_keyBits_snoc hb).2 ⟨h.2, rfl⟩
  exact ⟨_, mem_ub.2 ⟨h.1, h2⟩, h2⟩

theorem empty_of_placeholder (hm : NodupE m) {b : List Bool} (h : sh H m b = placeholder)
    (hnp : ∀ p ∈ ts H m b, p.hash H ≠ placeholder) : ub b m = [] := by
  rcases sh_cases hm H b with ⟨h0, -⟩ | ⟨e, -, h1, h2⟩ | ⟨-, h1, h2, -⟩
  · exact h0
  · exact absurd (h1.symm.trans h) (hnp _ h2)
  · exact absurd (h1.symm.trans h) (hnp _ h2)

theorem ts_child (hm : NodupE m) {b : List Bool} (h2 : 2 ≤ (ub b m).length) (x : Bool) :
    ∀ p ∈ ts H m (b ++ [x]), p ∈ ts H m b := by
  rcases sh_cases hm H b with ⟨h0, -⟩ | ⟨e, h0, -⟩ | ⟨-, -, -, h3⟩
  · rw [h0] at h2; simp at h2
  · rw [h0] at h2; simp at h2
  · exact h3 x

theorem bool_ne {a b : Bool} (h : a ≠ b) : a = !b := by cases a <;> cases b <;> simp_all

theorem most_iff (hm : NodupE m) (c : Bool) {vh : ValueHash} (hk : (k, vh) ∈ m) : ∀ (xs b : List Bool), b ++ xs = keyBits k →
    ((∀ p ∈ ts H m b, p.hash H ≠ placeholder) → Most c (hops H m b xs) → ∀ e' ∈ ub b m, ¬ Beyond c k e'.1) ∧
    ((∀ e' ∈ ub b m, ¬ Beyond c k e'.1) → Most c (hops H m b xs)) := by
  intro xs
  induction xs with
  | nil =>
    intro b hb
    rw [List.append_nil] at hb
    subst hb
    refine ⟨fun _ _ e' he' => ?_, fun _ p hp => by simp [hops] at hp⟩
    have : keyBits k = keyBits e'.1 := (mem_ub.1 he').2.eq_of_length (by simp)
    rw [keyBits_inj this]
    exact Beyond.irrefl
  | cons x xs ih =>
    intro b hb
    have hkb : (k, vh) ∈ ub b m := mem_ub.2 ⟨hk, ⟨_, hb⟩⟩
    unfold hops
    by_cases h1 : (ub b m).length ≤ 1
    · rw [if_pos h1]
      refine ⟨fun _ _ e' he' => ?_, fun _ p hp => by simp at hp⟩
      rcases len_cases (ub b m) with h | ⟨e, h⟩ | h
      · rw [h] at he'; simp at he'
      · rw [h] at he' hkb
        rw [List.mem_singleton.1 he', ← List.mem_singleton.1 hkb]
        exact Beyond.irrefl
      · omega
    · rw [if_neg h1]
      have h2 : 2 ≤ (ub b m).length := by omega
      have hlt := length_lt_of_two hm h2
      have hkx : b ++ [x] <+: keyBits k := ⟨xs, by rw [List.append_assoc]; exact hb⟩
      obtain ⟨ih1, ih2⟩ := ih (b ++ [x]) (by rw [List.append_assoc]; exact hb)
      constructor
      · intro hnp hmost e' he'
        have hx : x = c ∨ sh H m (b ++ [!x]) = placeholder := hmost _ (List.mem_cons_self ..)
        obtain ⟨y, hy1, hy2⟩ := next_bit hlt he'
        by_cases hyx : y = x
        · subst hyx
          exact ih1 (fun p hp => hnp p (ts_child hm h2 _ p hp)) (fun p hp => hmost p (List.mem_cons_of_mem _ hp)) e' hy1
        · have hy := bool_ne hyx
          subst hy
          rcases hx with hx | hx
          · subst hx
            have : Beyond x e'.1 k := beyond_at hy2 hkx
            exact this.asymm
          · rw [empty_of_placeholder hm hx (fun p hp => hnp p (ts_child hm h2 _ p hp))] at hy1
            simp at hy1
      · intro hmax p hp
        rcases List.mem_cons.1 hp with hp | hp
        · subst hp
          by_cases hxc : x = c
          · exact .inl hxc
          · right
            have hx := bool_ne hxc
            subst hx
            simp only [Bool.not_not]
            refine sh_zero H (List.eq_nil_iff_forall_not_mem.2 fun e' he' => ?_)
            have h := mem_ub.1 he'
            refine hmax e' (mem_ub.2 ⟨h.1, (List.prefix_append _ _).trans h.2⟩) (beyond_at hkx h.2)
        · exact ih2 (fun e' he' => hmax e' (mem_ub.2 ⟨(mem_ub.1 he').1, (List.prefix_append _ _).trans (mem_ub.1 he').2⟩)) p hp

theorem two_of_mem {l : List Entry} {a b : Entry} (ha : a ∈ l) (hb : b ∈ l) (hne : a ≠ b) : 2 ≤ l.length := by
  rcases len_cases l with h | ⟨e, h⟩ | h
  · rw [h] at ha; simp at ha
  · rw [h] at ha hb
    exact absurd ((List.mem_singleton.1 ha).trans (List.mem_singleton.1 hb).symm) hne
  · exact h

theorem adjacent_iff (hm : NodupE m) {l r : KeyHash} {vl vr : ValueHash} (hl : (l, vl) ∈ m) (hr : (r, vr) ∈ m) (hne : l ≠ r) :
    ∀ (xs ys b : List Bool), b ++ xs = keyBits l → b ++ ys = keyBits r →
    ((∀ p ∈ ts H m b, p.hash H ≠ placeholder) → Adjacent (hops H m b xs) (hops H m b ys) →
      l.val < r.val ∧ ∀ e' ∈ ub b m, ¬ (l.val < e'.1.val ∧ e'.1.val < r.val)) ∧
    (l.val < r.val → (∀ e' ∈ ub b m, ¬ (l.val < e'.1.val ∧ e'.1.val < r.val)) →
      Adjacent (hops H m b xs) (hops H m b ys)) := by
  intro xs
  induction xs with
  | nil =>
    intro ys b h1 h2
    exfalso
    rw [List.append_nil] at h1
    subst h1
    have : keyBits l = keyBits r := List.IsPrefix.eq_of_length ⟨_, h2⟩ (by simp)
    exact hne (keyBits_inj this)
  | cons x xs ih =>
    intro ys b h1 h2
    have hlb : (l, vl) ∈ ub b m := mem_ub.2 ⟨hl, ⟨_, h1⟩⟩
    have hrb : (r, vr) ∈ ub b m := mem_ub.2 ⟨hr, ⟨_, h2⟩⟩
    have h2' : 2 ≤ (ub b m).length := two_of_mem hlb hrb (by intro h; injection h with h _; exact hne h)
    have hlt := length_lt_of_two hm h2'
    cases ys with
    | nil => rw [List.append_nil] at h2; rw [h2] at hlt; simp at hlt
    | cons y ys =>
      have hlx : b ++ [x] <+: keyBits l := ⟨xs, by rw [List.append_assoc]; exact h1⟩
      have hry : b ++ [y] <+: keyBits r := ⟨ys, by rw [List.append_assoc]; exact h2⟩
      have e1 : b ++ [x] ++ xs = keyBits l := by rw [List.append_assoc]; exact h1
      have e2 : b ++ [y] ++ ys = keyBits r := by rw [List.append_assoc]; exact h2
      unfold hops
      rw [if_neg (by omega), if_neg (by omega)]
      simp only [Adjacent]
      by_cases hxy : x = y
      · subst hxy
        obtain ⟨ih1, ih2⟩ := ih ys (b ++ [x]) e1 e2
        constructor
        · rintro hnp (⟨-, ha⟩ | ⟨ha, -⟩)
          · obtain ⟨i1, i2⟩ := ih1 (fun p hp => hnp p (ts_child hm h2' _ p hp)) ha
            refine ⟨i1, fun e' he' => ?_⟩
            obtain ⟨z, hz1, hz2⟩ := next_bit hlt he'
            by_cases hzx : z = x
            · subst hzx; exact i2 e' hz1
            · rintro ⟨g1, g2⟩
              have := bool_ne hzx
              subst this
              cases x
              · exact List.lt_asymm g2 (lt_at hry hz2)
              · exact List.lt_asymm g1 (lt_at hz2 hlx)
          · exact absurd rfl ha
        · intro hlr hno
          exact .inl ⟨rfl, ih2 hlr (fun e' he' => hno e' (mem_ub.2 ⟨(mem_ub.1 he').1,
            (List.prefix_append _ _).trans (mem_ub.1 he').2⟩))⟩
      · have hpne : (x, sh H m (b ++ [!x])) ≠ (y, sh H m (b ++ [!y])) := by
          intro h; injection h with h _; exact hxy h
        obtain ⟨m1, m2⟩ := most_iff (H := H) hm true hl xs (b ++ [x]) e1
        obtain ⟨n1, n2⟩ := most_iff (H := H) hm false hr ys (b ++ [y]) e2
        constructor
        · rintro hnp (⟨ha, -⟩ | ⟨-, rfl, rfl, ha, hb⟩)
          · exact absurd ha hpne
          · have hmx := m1 (fun p hp => hnp p (ts_child hm h2' _ p hp)) ha
            have hmn := n1 (fun p hp => hnp p (ts_child hm h2' _ p hp)) hb
            refine ⟨lt_at hlx hry, fun e' he' => ?_⟩
            rintro ⟨g1, g2⟩
            obtain ⟨z, hz1, hz2⟩ := next_bit hlt he'
            cases z
            · exact hmx e' hz1 g1
            · exact hmn e' hz1 g2
        · intro hlr hno
          right
          have hx : x = false := by
            cases x with
            | false => rfl
            | true =>
              have : y = false := by cases y <;> simp_all
              subst this
              exact absurd hlr (List.lt_asymm (lt_at hry hlx))
          subst hx
          have hy : y = true := by cases y <;> simp_all
          subst hy
          refine ⟨hpne, rfl, rfl, m2 fun e' he' hc => ?_, n2 fun e' he' hc => ?_⟩
          · have h := mem_ub.1 he'
            exact hno e' (mem_ub.2 ⟨h.1, (List.prefix_append _ _).trans h.2⟩) ⟨hc, lt_at h.2 hry⟩
          · have h := mem_ub.1 he'
            exact hno e' (mem_ub.2 ⟨h.1, (List.prefix_append _ _).trans h.2⟩) ⟨lt_at hlx h.2, hc⟩

end Jmt
