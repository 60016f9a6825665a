import Verif.Spec.Queries
import Verif.Props.Iterate
import Verif.Props.Range
import Verif.Props.Ics23
/-!
# Two stores that serve the same map answer every query alike
-/
namespace Jmt
open Spec (Entry)

section
variable {H : Hasher} {m m' : List Entry} {k : KeyHash}

theorem IsPred.perm (h : m.Perm m') : ∀ {l}, IsPred m k l → IsPred m' k l
  | none, hp => fun e he => hp e (h.mem_iff.2 he)
  | some _, ⟨h1, ⟨e, h2, h3⟩, h4⟩ => ⟨h1, ⟨e, h.mem_iff.1 h2, h3⟩, fun e he => h4 e (h.mem_iff.2 he)⟩

theorem IsSucc.perm (h : m.Perm m') : ∀ {l}, IsSucc m k l → IsSucc m' k l
  | none, hp => fun e he => hp e (h.mem_iff.2 he)
  | some _, ⟨h1, ⟨e, h2, h3⟩, h4⟩ => ⟨h1, ⟨e, h.mem_iff.1 h2, h3⟩, fun e he => h4 e (h.mem_iff.2 he)⟩

theorem key_eq_of_not_lt {a b : KeyHash} (h1 : ¬ a.val < b.val) (h2 : ¬ b.val < a.val) : a = b :=
  Subtype.ext (List.le_antisymm (List.not_lt.1 h2) (List.not_lt.1 h1))

theorem IsPred.unique : ∀ {l l'}, IsPred m k l → IsPred m k l' → l = l'
  | none, none, _, _ => rfl
  | none, some _, h, ⟨h1, ⟨e, h2, h3⟩, _⟩ => absurd (h3 ▸ h1) (h e h2)
  | some _, none, ⟨h1, ⟨e, h2, h3⟩, _⟩, h => absurd (h3 ▸ h1) (h e h2)
  | some _, some _, ⟨h1, ⟨e, h2, h3⟩, h4⟩, ⟨g1, ⟨e', g2, g3⟩, g4⟩ => by
    subst h3 g3
    exact congrArg some (key_eq_of_not_lt (h4 e' g2 g1) (g4 e h2 h1))

theorem IsSucc.unique : ∀ {l l'}, IsSucc m k l → IsSucc m k l' → l = l'
  | none, none, _, _ => rfl
  | none, some _, h, ⟨h1, ⟨e, h2, h3⟩, _⟩ => absurd (h3 ▸ h1) (h e h2)
  | some _, none, ⟨h1, ⟨e, h2, h3⟩, _⟩, h => absurd (h3 ▸ h1) (h e h2)
  | some _, some _, ⟨h1, ⟨e, h2, h3⟩, h4⟩, ⟨g1, ⟨e', g2, g3⟩, g4⟩ => by
    subst h3 g3
    exact congrArg some (key_eq_of_not_lt (g4 e h2 h1) (h4 e' g2 g1))

theorem exclusionOf_perm (hn : NodupE m) (h : m.Perm m') (l r) : exclusionOf H m l r = exclusionOf H m' l r := by
  have hp := specProof_perm (H := H) hn h
  cases l <;> cases r <;> simp [exclusionOf, hp]

theorem sorted_unique : ∀ {a b : List (KeyHash × Value)}, a.Pairwise (fun x y => x.1.val < y.1.val) →
    b.Pairwise (fun x y => x.1.val < y.1.val) → (∀ x, x ∈ a ↔ x ∈ b) → a = b := by
  intro a b ha hb h
  have nd : ∀ {l : List (KeyHash × Value)}, l.Pairwise (fun x y => x.1.val < y.1.val) → l.Nodup := fun hl =>
    hl.imp (fun hxy he => by rw [he] at hxy; exact absurd hxy (List.lt_irrefl _))
  refine List.Perm.eq_of_pairwise (le := fun x y => x.1.val < y.1.val) ?_ ha hb
    ((List.perm_ext_iff_of_nodup (nd ha) (nd hb)).2 h)
  intro x y _ _ h1 h2
  exact absurd h2 (List.lt_asymm h1)

end

section
variable {H : Hasher} {R R' : Reader} {v v' : Version} {mp : Spec.Map} {es es' : List Entry}

theorem neighbour_same (r : ReadTree H R v mp es) (r' : ReadTree H R' v' mp es') {k : KeyHash} (hk : ∃ e ∈ es, e.1 = k)
    (checked pf : Bool) (pre : KeyHash → Except Err (Option (List UInt8))) :
    ics23Neighbour H checked pf R pre v (specProof H es k) = ics23Neighbour H checked pf R' pre v' (specProof H es k) := by
  obtain ⟨⟨k, vh⟩, he, rfl⟩ := hk
  obtain ⟨x, hx, -⟩ := (r.lists.mem k vh).1 he
  have hval : ics23Value R k v = ics23Value R' k v' := by
    unfold ics23Value Jmt.get
    rw [r.present k x hx, r'.present k x hx]
  unfold ics23Neighbour
  rw [(specProof_leaf_iff (H := H) r.nodup k vh).2 he]
  simp only [hval]

theorem ReadTree.sameTree (r : ReadTree H R v mp es) (r' : ReadTree H R' v' mp es') : SameTreeQueries H R R' v v' := by
  have hp := lists_perm r.lists r'.lists
  have hg : ∀ k, getWithProof H R k v = getWithProof H R' k v' := by
    intro k
    rw [r.gwp, r'.gwp, specProof_perm r.nodup hp]
  have hex : ∀ k, getWithExclusionProof H R k v = getWithExclusionProof H R' k v' ∧ ∀ checked pre key ep,
      getWithExclusionProof H R k v = .ok (.inr ep) →
        ics23Nonexistence H checked R pre key v ep = ics23Nonexistence H checked R' pre key v' ep := by
    intro k
    cases hk : mp k with
    | some x =>
      unfold getWithExclusionProof
      rw [hg k, r'.gwp, ok_bind, ok_bind, hk]
      exact ⟨rfl, fun _ _ _ ep h => by cases h⟩
    | none =>
      by_cases hne : es = []
      · have hemp : ∀ k, mp k = none := by
          intro k
          cases hk : mp k with
          | none => rfl
          | some x =>
            have := (r.lists.mem k _).2 ⟨x, hk, rfl⟩
            rw [hne] at this; cases this
        rw [r.exclusion_empty hemp, r'.exclusion_empty hemp]
        exact ⟨rfl, fun _ _ _ ep h => by cases h⟩
      · obtain ⟨l, rr, ep, h1, h2, h3, h4⟩ := exclusion_spec r hk hne
        obtain ⟨l', rr', ep', g1, g2, g3, g4⟩ := exclusion_spec r' hk (fun h => hne (by
          rw [h] at hp; exact hp.eq_nil))
        obtain rfl := (h1.perm hp).unique g1
        obtain rfl := (h2.perm hp).unique g2
        rw [exclusionOf_perm r.nodup hp, g4] at h4
        cases h4
        rw [h3, g3]
        refine ⟨rfl, fun checked pre key ep he => ?_⟩
        cases he
        rw [← exclusionOf_perm r.nodup hp] at g4
        have hnb := fun {k} hk => neighbour_same r r' (k := k) hk checked
        match l, rr, h1, h2, g4 with
        | none, none, _, _, g4 => cases g4
        | none, some b, _, h2, g4 =>
          cases g4
          unfold ics23Nonexistence
          simp only [hnb h2.2.1]
        | some a, none, h1, _, g4 =>
          cases g4
          unfold ics23Nonexistence
          simp only [hnb h1.2.1]
        | some a, some b, h1, h2, g4 =>
          cases g4
          unfold ics23Nonexistence
          simp only [hnb h1.2.1, hnb h2.2.1]
  refine ⟨hg, by rw [r.rootHash, r'.rootHash, root_perm hp], by rw [r.rootHashOption, r'.rootHashOption, root_perm hp],
    by rw [r.leafCount, r'.leafCount, hp.length_eq], fun k => ?_, fun k => (hex k).1, fun checked pre key => ?_, fun start => ?_, fun i => ?_⟩
  · unfold getRangeProof
    rw [hg]
  · unfold getWithIcs23Proof
    obtain ⟨h1, h2⟩ := hex (H.hash key)
    rw [← h1]
    cases hq : getWithExclusionProof H R (H.hash key) v with
    | error e => rfl
    | ok z =>
      cases z with
      | inl a => rfl
      | inr ep =>
        show (ics23Nonexistence H checked R pre key v ep >>= _) = (ics23Nonexistence H checked R' pre key v' ep >>= _)
        rw [h2 _ _ _ _ hq]
  · obtain ⟨it, items, a1, a2, a3, a4⟩ := r.iter start
    obtain ⟨it', items', b1, b2, b3, b4⟩ := r'.iter start
    obtain rfl : items = items' := sorted_unique a3 b3 (fun ⟨k, x⟩ => by rw [a4, b4])
    exact ⟨it, it', items, a1, b1, a2, b2⟩
  · obtain ⟨items, ⟨a1, a2⟩, a3⟩ := r.iterByIndex
    obtain ⟨items', ⟨b1, b2⟩, b3⟩ := r'.iterByIndex
    obtain rfl : items = items' := sorted_unique a1 b1 (fun ⟨k, x⟩ => by rw [a2, b2])
    obtain ⟨it, c1, c2⟩ := a3 i
    obtain ⟨it', d1, d2⟩ := b3 i
    exact ⟨it, it', _, c1, d1, c2, d2⟩

theorem SameTreeQueries.same (h : SameTreeQueries H R R' v v') (hg : ∀ k, Jmt.get R k v = Jmt.get R' k v') : SameQueries H R R' v v' :=
  ⟨⟨hg, h.getWithProof, h.rootHash, h.rootHashOption, h.leafCount⟩, h.range, h.exclusion, h.ics23, h.iter, h.iterByIndex⟩

theorem ReadAt.sameQueries (r : ReadAt H R v mp es) (r' : ReadAt H R' v' mp es') : SameQueries H R R' v v' :=
  (r.toReadTree.sameTree r'.toReadTree).same (r.same r').get

end
end Jmt
