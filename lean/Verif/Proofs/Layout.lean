import Verif.Spec.Layout
import Verif.Proofs.Reach
import Verif.Props.ProofShape
/-!
# The stored nodes and the specification of the layout
-/
namespace Jmt
open Spec (Entry Lists ListsWhere Below IsNode Renews RenewedAt LastRenewed ChildAt NodeAt)

variable {H : Hasher} {s : Spec.Map} {m : List Entry}

theorem listsWhere_perm {p : KeyHash → Prop} {es es' : List Entry} (h : ListsWhere H s p es) (h' : ListsWhere H s p es') :
    es.Perm es' := by
  rw [List.perm_ext_iff_of_nodup (nodup_of_fst h.nodup) (nodup_of_fst h'.nodup)]
  rintro ⟨k, vh⟩
  rw [h.mem, h'.mem]

theorem mem_of_some (h : Lists H s m) {k : KeyHash} : s k ≠ none ↔ ∃ e ∈ m, e.1 = k := by
  constructor
  · intro hk
    cases hs : s k with
    | none => exact absurd hs hk
    | some v => exact ⟨(k, H.hash v), (h.mem _ _).2 ⟨v, hs, rfl⟩, rfl⟩
  · rintro ⟨e, he, rfl⟩ hs
    obtain ⟨v, hv, -⟩ := (h.mem e.1 e.2).1 he
    rw [hs] at hv; cases hv

theorem listsWhere_under (h : Lists H s m) (q : List Nibble) : ListsWhere H s (Below q) (under q m) := by
  refine ⟨h.nodup.sublist (List.filter_sublist.map _), fun k vh => ?_⟩
  rw [mem_under, h.mem]
  exact And.comm

theorem two_iff (h : Lists H s m) (q : List Nibble) : 2 ≤ (under q m).length ↔
    ∃ k k', k ≠ k' ∧ s k ≠ none ∧ s k' ≠ none ∧ Below q k ∧ Below q k' := by
  constructor
  · intro h2
    have hnd := (listsWhere_under h q).nodup
    match hu : under q m with
    | [] => rw [hu] at h2; simp at h2
    | [e] => rw [hu] at h2; simp at h2
    | a :: b :: l =>
      rw [hu] at hnd
      have ha : a ∈ under q m := by rw [hu]; simp
      have hb : b ∈ under q m := by rw [hu]; simp
      rw [mem_under] at ha hb
      refine ⟨a.1, b.1, ?_, (mem_of_some h).2 ⟨a, ha.1, rfl⟩, (mem_of_some h).2 ⟨b, hb.1, rfl⟩, ha.2, hb.2⟩
      intro hab
      simp only [List.map_cons, List.nodup_cons, List.mem_cons, not_or] at hnd
      exact hnd.1.1 hab
  · rintro ⟨k, k', hne, h1, h2, h3, h4⟩
    obtain ⟨e, he, rfl⟩ := (mem_of_some h).1 h1
    obtain ⟨e', he', rfl⟩ := (mem_of_some h).1 h2
    have a : e ∈ under q m := mem_under.2 ⟨he, h3⟩
    have b : e' ∈ under q m := mem_under.2 ⟨he', h4⟩
    rcases len_cases (under q m) with hu | ⟨x, hu⟩ | hu
    · rw [hu] at a; cases a
    · rw [hu] at a b
      rw [List.mem_singleton.1 a, List.mem_singleton.1 b] at hne
      exact absurd rfl hne
    · exact hu

theorem pres_iff (h : Lists H s m) (q : List Nibble) : pres m [] q ↔ IsNode s q := by
  rw [pres_nil_iff, two_iff h]
  unfold IsNode
  refine and_congr ?_ Iff.rfl
  constructor
  · intro hu
    obtain ⟨e, he⟩ := List.exists_mem_of_ne_nil _ hu
    rw [mem_under] at he
    exact ⟨e.1, (mem_of_some h).2 ⟨e, he.1, rfl⟩, he.2⟩
  · rintro ⟨k, h1, h2⟩ hu
    obtain ⟨e, he, rfl⟩ := (mem_of_some h).1 h1
    have : e ∈ under q m := mem_under.2 ⟨he, h2⟩
    rw [hu] at this; cases this

theorem renew1_iff (h : Lists H s m) (k : KeyHash) (x : Option Value) (q : List Nibble) :
    Renew1 m k (x.map H.hash) q ↔ Renews s (k, x) q := by
  unfold Renew1 Renews
  rw [pres_iff h, mem_of_some h]
  simp [Below]

theorem renewed_iff {q : List Nibble} : ∀ (ws : ValueSet) {s : Spec.Map} {m : List Entry}, Lists H s m →
    (Renewed H m ws q ↔ ∃ pre w post, ws = pre ++ w :: post ∧ Renews (s.writes pre) w q) := by
  intro ws
  induction ws with
  | nil =>
    intro s m _
    constructor
    · intro h; exact h.elim
    · rintro ⟨pre, w, post, h, -⟩; cases pre <;> cases h
  | cons w ws ih =>
    intro s m h
    obtain ⟨k, x⟩ := w
    show Renew1 m k (x.map H.hash) q ∨ Renewed H (upd m k (x.map H.hash)) ws q ↔ _
    rw [renew1_iff h, ih (lists_upd h k x)]
    constructor
    · rintro (h1 | ⟨pre, w, post, rfl, h1⟩)
      · exact ⟨[], (k, x), ws, rfl, h1⟩
      · exact ⟨(k, x) :: pre, w, post, rfl, h1⟩
    · rintro ⟨pre, w, post, h1, h2⟩
      cases pre with
      | nil => cases h1; exact .inl h2
      | cons a pre => cases h1; exact .inr ⟨pre, w, post, rfl, h2⟩

/-- The canonical node is what the specification says. -/
theorem canonNode_nodeAt (h : Lists H s m) {V : List Nibble → Version} {ver : List Nibble → Version → Prop} {q : List Nibble}
    (hv : ∀ i, pres m [] (q ++ [i]) → ver (q ++ [i]) (V (q ++ [i]))) : NodeAt H s ver q (canonNode H m V q) := by
  have hl := listsWhere_under h q
  rcases len_cases (under q m) with hu | ⟨e, hu⟩ | hu
  · rw [canonNode_nil hu]
    rw [hu] at hl; exact hl
  · rw [canonNode_one hu]
    rw [hu] at hl; exact hl
  · rw [canonNode_two hu]
    refine ⟨under q m, hl, hu, rfl, rfl, fun i => ?_⟩
    have hl' := listsWhere_under h (q ++ [i])
    have hslot : (canonInternal H m V q).children.slots i = canonChild H m V (q ++ [i]) := rfl
    rw [hslot]
    constructor
    · constructor
      · intro hn
        have hu' : under (q ++ [i]) m = [] := by
          apply Classical.byContradiction
          intro hc
          have := canonChild_isSome (H := H) (ver := V) |>.2 hc
          rw [hn] at this; cases this
        rw [hu'] at hl'; exact hl'
      · intro hn
        exact canonChild_nil (List.Perm.eq_nil (listsWhere_perm hl' hn))
    · intro c hc
      have hne : under (q ++ [i]) m ≠ [] := by
        intro hu'; rw [canonChild_nil hu'] at hc; cases hc
      have hver := hv i (pres_nil_iff.2 ⟨hne, .inr (by simpa using hu)⟩)
      have hsh : Spec.subtree H (256 - 4 * (q ++ [i]).length) (4 * (q ++ [i]).length) (under (q ++ [i]) m) = sh H m (pathBits (q ++ [i])) := by
        unfold sh
        rw [pathBits_length]; rfl
      rcases len_cases (under (q ++ [i]) m) with hu' | ⟨e, hu'⟩ | hu'
      · exact absurd hu' hne
      · rw [canonChild_one hu'] at hc
        cases hc
        refine ⟨hver, _, hl', hne, ?_, by rw [hu']; rfl⟩
        rw [hsh, sh_one H hu']
      · rw [canonChild_two hu'] at hc
        cases hc
        refine ⟨hver, _, hl', hne, hsh.symm, ?_⟩
        rw [if_neg (by omega)]

theorem childAt_unique {ver : Version → Prop} (hf : ∀ a b, ver a → ver b → a = b) {q : List Nibble} {c c' : Child}
    (h : ChildAt H s ver q c) (h' : ChildAt H s ver q c') : c = c' := by
  obtain ⟨h1, es, h2, h3, h4, h5⟩ := h
  obtain ⟨g1, es', g2, g3, g4, g5⟩ := h'
  have hp := listsWhere_perm h2 g2
  obtain ⟨a, b, d⟩ := c
  obtain ⟨a', b', d'⟩ := c'
  simp only at h1 h4 h5 g1 g4 g5
  rw [h4, g4, h5, g5, hf _ _ h1 g1, subtree_perm H _ _ hp, hp.length_eq]

/-- The specification determines the node. -/
theorem nodeAt_unique {ver : List Nibble → Version → Prop} (hf : ∀ q a b, ver q a → ver q b → a = b) {q : List Nibble} {n n' : Node}
    (h : NodeAt H s ver q n) (h' : NodeAt H s ver q n') : n = n' := by
  have key : ∀ {n : Node}, NodeAt H s ver q n → ∃ es, ListsWhere H s (Below q) es ∧
      (match n with | .null => es = [] | .leaf l => es = [(l.keyHash, l.valueHash)] | .internal _ => 2 ≤ es.length) := by
    intro n h
    cases n with
    | null => exact ⟨_, h, rfl⟩
    | leaf l => exact ⟨_, h, rfl⟩
    | internal n => obtain ⟨es, h1, h2, -⟩ := h; exact ⟨es, h1, h2⟩
  obtain ⟨es, a1, a2⟩ := key h
  obtain ⟨es', b1, b2⟩ := key h'
  have hp := listsWhere_perm a1 b1
  have hlen := hp.length_eq
  cases n with
  | null =>
    cases n' with
    | null => rfl
    | leaf l => simp only at a2 b2; rw [a2, b2] at hlen; simp at hlen
    | internal n => simp only at a2 b2; rw [a2] at hlen; simp only [List.length_nil, List.length_singleton] at hlen; omega
  | leaf l =>
    cases n' with
    | null => simp only at a2 b2; rw [a2, b2] at hlen; simp at hlen
    | leaf l' =>
      simp only at a2 b2
      rw [a2, b2] at hp
      have := List.singleton_perm.1 hp
      simp only [List.cons.injEq, Prod.mk.injEq, and_true] at this
      obtain ⟨x, y⟩ := l
      obtain ⟨x', y'⟩ := l'
      simp only at this
      rw [this.1, this.2]
    | internal n => simp only at a2 b2; rw [a2] at hlen; simp only [List.length_nil, List.length_singleton] at hlen; omega
  | internal n =>
    cases n' with
    | null => simp only at a2 b2; rw [b2] at hlen; simp only [List.length_nil] at hlen; omega
    | leaf l => simp only at a2 b2; rw [b2] at hlen; simp only [List.length_singleton] at hlen; omega
    | internal n' =>
      obtain ⟨e1, c1, c2, c3, c4, c5⟩ := h
      obtain ⟨e2, d1, d2, d3, d4, d5⟩ := h'
      have hslots : n.children.slots = n'.children.slots := by
        funext i
        cases hc : n.children.slots i with
        | none => exact ((d5 i).1.2 ((c5 i).1.1 hc)).symm
        | some c =>
          cases hd : n'.children.slots i with
          | none => rw [(c5 i).1.2 ((d5 i).1.1 hd)] at hc; cases hc
          | some c' => rw [childAt_unique (hf _) ((c5 i).2 c hc) ((d5 i).2 c' hd)]
      obtain ⟨⟨sl, nc⟩, lc⟩ := n
      obtain ⟨⟨sl', nc'⟩, lc'⟩ := n'
      simp only at hslots c3 c4 d3 d4
      subst hslots
      rw [c3, d3, c4, d4, (listsWhere_perm c1 d1).length_eq]

theorem lastRenewed_unique {hist : List ValueSet} {v : Version} {q : List Nibble} {a b : Version}
    (ha : LastRenewed hist v q a) (hb : LastRenewed hist v q b) : a = b := by
  rcases Nat.lt_trichotomy a b with h | h | h
  · exact absurd hb.2.1 (ha.2.2 b h hb.1)
  · exact h
  · exact absurd ha.2.1 (hb.2.2 a h ha.1)

/-- The versions in the invariant are those of the last renewal. -/
theorem VerInv.last {hist : List ValueSet} {M : Nat → List Entry} {W : Nat → List Nibble → Version} (h : VerInv H hist M W)
    (hM : ∀ i, i < hist.length → M i = entriesAfter H hist (i + 1)) :
    ∀ i, i < hist.length → ∀ q, q ≠ [] → pres (M i) [] q →
      (RenewedAt hist i q → W i q = i) ∧ (¬ RenewedAt hist i q → 0 < i ∧ W i q = W (i - 1) q ∧ pres (M (i - 1)) [] q) := by
  intro i hi q hq hp
  have hws : hist[i]? = some hist[i] := List.getElem?_eq_getElem hi
  have hl : Lists H (Spec.stateAfter Spec.Map.empty hist i) (cur M i) := by
    unfold cur
    split
    · next h0 => rw [h0]; exact lists_entriesAfter H hist 0
    · next h0 =>
      rw [hM (i - 1) (by omega), show i - 1 + 1 = i by omega]
      exact lists_entriesAfter H hist i
  have hiff : Renewed H (cur M i) hist[i] q ↔ RenewedAt hist i q := by
    rw [renewed_iff _ hl]
    unfold RenewedAt
    rw [hws]
    simp
  obtain ⟨h1, h2⟩ := h i hi q hq hp _ hws
  rw [hiff] at h1 h2
  refine ⟨h1, fun hn => ?_⟩
  obtain ⟨h3, h4⟩ := h2 hn
  unfold cur at h4
  split at h4
  · exact absurd h4 not_pres_of_nil
  · exact ⟨by omega, h3, h4⟩

theorem VerInv.lastRenewed {hist : List ValueSet} {M : Nat → List Entry} {W : Nat → List Nibble → Version} (h : VerInv H hist M W)
    (hM : ∀ i, i < hist.length → M i = entriesAfter H hist (i + 1)) {q : List Nibble} (hq : q ≠ []) :
    ∀ i, i < hist.length → pres (M i) [] q → LastRenewed hist i q (W i q) := by
  intro i
  induction i with
  | zero =>
    intro hi hp
    obtain ⟨h1, h2⟩ := h.last hM 0 hi q hq hp
    by_cases hr : RenewedAt hist 0 q
    · rw [h1 hr]; exact ⟨Nat.le_refl _, hr, fun u a b => by omega⟩
    · have := (h2 hr).1; omega
  | succ i ih =>
    intro hi hp
    obtain ⟨h1, h2⟩ := h.last hM (i + 1) hi q hq hp
    by_cases hr : RenewedAt hist (i + 1) q
    · rw [h1 hr]; exact ⟨Nat.le_refl _, hr, fun u a b => by omega⟩
    · obtain ⟨-, h3, h4⟩ := h2 hr
      rw [h3]
      obtain ⟨g1, g2, g3⟩ := ih (by omega) h4
      refine ⟨by simp only [Nat.add_sub_cancel]; omega, g2, fun u a b => ?_⟩
      by_cases hu : u = i + 1
      · rw [hu]; exact hr
      · exact g3 u a (by omega)

theorem lastWrite_split {k : KeyHash} {x : Option Value} : ∀ {ws : ValueSet}, lastWrite ws k = some x ↔
    ∃ before after, ws = before ++ (k, x) :: after ∧ ∀ w ∈ after, w.1 ≠ k := by
  intro ws
  induction ws with
  | nil =>
    constructor
    · intro h; cases h
    · rintro ⟨b, a, h, -⟩; cases b <;> cases h
  | cons w ws ih =>
    rw [lastWrite_cons]
    constructor
    · intro h
      cases hl : lastWrite ws k with
      | some x' =>
        rw [hl] at h; cases h
        obtain ⟨b, a, rfl, h2⟩ := ih.1 hl
        exact ⟨w :: b, a, rfl, h2⟩
      | none =>
        rw [hl] at h
        by_cases hk : w.1 = k
        · rw [if_pos hk] at h
          obtain ⟨wk, wx⟩ := w
          cases h; cases hk
          refine ⟨[], ws, rfl, fun w hw hk' => ?_⟩
          have : (lastWrite ws wk).isSome := lastWrite_isSome.2 (List.mem_map.2 ⟨w, hw, hk'⟩)
          rw [hl] at this; cases this
        · rw [if_neg hk] at h; cases h
    · rintro ⟨b, a, h1, h2⟩
      cases b with
      | nil =>
        cases h1
        rw [lastWrite_none (fun hc => by obtain ⟨w, hw, hk⟩ := List.mem_map.1 hc; exact h2 w hw hk)]
        simp
      | cons c b =>
        cases h1
        rw [ih.2 ⟨b, a, rfl, h2⟩]; rfl

theorem versions_ext {α : Type} : ∀ {l l' : List (Version × α)}, l.Pairwise (fun a b => a.1 < b.1) →
    l'.Pairwise (fun a b => a.1 < b.1) → (∀ e, e ∈ l ↔ e ∈ l') → l = l'
  | [], [], _, _, _ => rfl
  | [], b :: l', _, _, h => absurd ((h b).2 List.mem_cons_self) (by simp)
  | a :: l, [], _, _, h => absurd ((h a).1 List.mem_cons_self) (by simp)
  | a :: l, b :: l', h1, h2, h => by
    have g1 := List.pairwise_cons.1 h1
    have g2 := List.pairwise_cons.1 h2
    have hab : a = b := by
      rcases List.mem_cons.1 ((h a).1 List.mem_cons_self) with hc | hc
      · exact hc
      · rcases List.mem_cons.1 ((h b).2 List.mem_cons_self) with hd | hd
        · exact hd.symm
        · have := g1.1 b hd
          have := g2.1 a hc
          omega
    subst hab
    congr 1
    refine versions_ext g1.2 g2.2 fun e => ⟨fun he => ?_, fun he => ?_⟩
    · rcases List.mem_cons.1 ((h e).1 (List.mem_cons_of_mem _ he)) with hc | hc
      · subst hc; have := g1.1 _ he; omega
      · exact hc
    · rcases List.mem_cons.1 ((h e).2 (List.mem_cons_of_mem _ he)) with hc | hc
      · subst hc; have := g2.1 _ he; omega
      · exact hc

end Jmt
