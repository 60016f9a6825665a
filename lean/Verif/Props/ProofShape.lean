import Verif.Spec.ProofShape
import Verif.Props.Core
/-!
# C31: exactly how long a proof is, and what it holds
-/
namespace Jmt
open Spec (Entry)
variable {H : Hasher} {m : List Entry} {k : KeyHash}

theorem walk_at (b xs : List Bool) (d : Nat) (h : d < (walk H m b xs).1.length) :
    2 ≤ (ub (b ++ xs.take d) m).length ∧
    ∃ x, xs[d]? = some x ∧ (walk H m b xs).1[d]? = some (sibNode H m (b ++ xs.take d ++ [!x])) := by
  induction xs generalizing b d with
  | nil => simp [walk] at h
  | cons x xs ih =>
    by_cases h1 : (ub b m).length ≤ 1
    · simp [walk_stop h1] at h
    · rw [walk_step (by omega)] at h ⊢
      cases d with
      | zero => exact ⟨by simpa using (by omega : 2 ≤ (ub b m).length), x, rfl, by simp⟩
      | succ d =>
        obtain ⟨h2, y, h3, h4⟩ := ih (b ++ [x]) d (by simpa using h)
        refine ⟨by simpa using h2, y, by simpa using h3, by simpa using h4⟩

theorem shares_iff {k k' : KeyHash} {d : Nat} (hd : d ≤ 256) :
    (keyBits k).take d <+: keyBits k' ↔ Spec.Shares k k' d := by
  induction d with
  | zero => simp [Spec.Shares]
  | succ d ih =>
    have hg := keyBits_getElem? k d (by omega)
    rw [List.take_add_one, hg, Option.toList_some, prefix_keyBits_snoc (by simp; omega), ih (by omega)]
    have hl : ((keyBits k).take d).length = d := by simp; omega
    rw [hl]
    constructor
    · rintro ⟨h1, h2⟩ i hi
      rcases Nat.lt_succ_iff_lt_or_eq.1 hi with hi | rfl
      · exact h1 i hi
      · exact h2
    · intro h
      exact ⟨fun i hi => h i (by omega), h d (by omega)⟩

theorem mem_ub_take {d : Nat} (hd : d ≤ 256) {e : Entry} :
    e ∈ ub ((keyBits k).take d) m ↔ e ∈ m ∧ Spec.Shares k e.1 d := by
  rw [mem_ub, shares_iff hd]

theorem mem_ub_beside {d : Nat} (hd : d < 256) {e : Entry} :
    e ∈ ub ((keyBits k).take d ++ [!Spec.bit k d]) m ↔ e ∈ m ∧ Spec.Beside k d e.1 := by
  have hl : ((keyBits k).take d).length = d := by simp; omega
  rw [mem_ub, prefix_keyBits_snoc (by omega), shares_iff (by omega), hl]
  unfold Spec.Beside
  cases Spec.bit e.1 d <;> cases Spec.bit k d <;> simp

theorem sibNode_nodeOf {b : List Bool} (hb : b.length < 256) : sibNode H m b = Spec.nodeOf H b.length (ub b m) := by
  unfold sibNode Spec.nodeOf
  match hu : ub b m with
  | [] => rfl
  | [e] => rfl
  | e :: e' :: t =>
    simp only []
    unfold sh
    rw [ub_snoc hb, ub_snoc hb, hu]
    simp only [List.length_append, List.length_singleton]
    rw [show 256 - (b.length + 1) = 255 - b.length by omega]

theorem specProof_shape {s : Spec.Map} (hl : Spec.Lists H s m) : Spec.ProofShape H s k (specProof H m k) := by
  have hm : NodupE m := hl.nodup
  have hlen := specProof_len H m k
  have hlen' : (specProof H m k).siblings.length = (walk H m [] (keyBits k)).1.length := by simp [specProof]
  have hend : (walk H m [] (keyBits k)).2 = (keyBits k).take (specProof H m k).siblings.length := by
    rw [walk_end_eq, hlen']; rfl
  have h1 : (ub ((keyBits k).take (specProof H m k).siblings.length) m).length ≤ 1 := hend ▸ (walk_mem hm k).1
  have hin : ∀ {k'}, s k' ≠ none → ∃ vh, (k', vh) ∈ m := by
    intro k' h
    cases hs : s k' with
    | none => exact absurd hs h
    | some v => exact ⟨H.hash v, (hl.mem _ _).2 ⟨v, hs, rfl⟩⟩
  have hout : ∀ {e : Entry}, e ∈ m → s e.1 ≠ none := by
    intro e h
    obtain ⟨v, hv, -⟩ := (hl.mem e.1 e.2).1 h
    simp [hv]
  refine ⟨?_, ?_, ?_, ?_⟩
  · intro k₁ k₂ a₁ a₂ b₁ b₂
    obtain ⟨v₁, m₁⟩ := hin a₁
    obtain ⟨v₂, m₂⟩ := hin a₂
    have u₁ := (mem_ub_take (k := k) hlen).2 ⟨m₁, b₁⟩
    have u₂ := (mem_ub_take (k := k) hlen).2 ⟨m₂, b₂⟩
    match hu : ub ((keyBits k).take (specProof H m k).siblings.length) m with
    | [] => rw [hu] at u₁; cases u₁
    | [e] =>
      rw [hu, List.mem_singleton] at u₁ u₂
      exact congrArg Prod.fst (u₁.trans u₂.symm)
    | _ :: _ :: _ => rw [hu] at h1; simp at h1
  · intro d hd
    obtain ⟨h2, -⟩ := walk_at [] (keyBits k) d (hlen' ▸ hd)
    rw [List.nil_append] at h2
    have hd' : d ≤ 256 := by omega
    match hu : ub ((keyBits k).take d) m with
    | [] => rw [hu] at h2; simp at h2
    | [_] => rw [hu] at h2; simp at h2
    | e₁ :: e₂ :: t =>
      have u₁ : e₁ ∈ ub ((keyBits k).take d) m := by rw [hu]; simp
      have u₂ : e₂ ∈ ub ((keyBits k).take d) m := by rw [hu]; simp
      have hn := hm.ub ((keyBits k).take d)
      rw [hu] at hn
      rw [mem_ub_take hd'] at u₁ u₂
      refine ⟨e₁.1, e₂.1, ?_, hout u₁.1, hout u₂.1, u₁.2, u₂.2⟩
      intro he
      simp [NodupE, he] at hn
  · intro k' vh
    have hleaf : (specProof H m k).leaf = (ub ((keyBits k).take (specProof H m k).siblings.length) m).head? := by
      rw [← hend]; rfl
    rw [hleaf]
    rw [← hl.mem, And.comm, ← mem_ub_take (k := k) (e := (k', vh)) hlen]
    match hu : ub ((keyBits k).take (specProof H m k).siblings.length) m with
    | [] => simp
    | [e] => simp [eq_comm]
    | _ :: _ :: _ => rw [hu] at h1; simp at h1
  · intro d hd
    have hd' : d < 256 := by omega
    obtain ⟨-, x, hx, hs⟩ := walk_at [] (keyBits k) d (hlen' ▸ hd)
    rw [keyBits_getElem? k d hd'] at hx
    cases hx
    refine ⟨ub ((keyBits k).take d ++ [!Spec.bit k d]) m, ⟨hm.ub _, ?_⟩, ?_⟩
    · intro k' vh
      rw [mem_ub_beside hd', hl.mem, And.comm]
    · have hl' : ((keyBits k).take d ++ [!Spec.bit k d]).length = d + 1 := by simp; omega
      by_cases h255 : d + 1 < 256
      · have := sibNode_nodeOf (H := H) (m := m) (b := (keyBits k).take d ++ [!Spec.bit k d]) (by omega)
        rw [hl'] at this
        rw [← this]
        simpa [specProof] using hs
      · have hle := ub_length_le_one hm (b := (keyBits k).take d ++ [!Spec.bit k d]) (by omega)
        have : sibNode H m ((keyBits k).take d ++ [!Spec.bit k d])
            = Spec.nodeOf H (d + 1) (ub ((keyBits k).take d ++ [!Spec.bit k d]) m) := by
          unfold sibNode Spec.nodeOf
          match hu : ub ((keyBits k).take d ++ [!Spec.bit k d]) m with
          | [] => rfl
          | [e] => rfl
          | _ :: _ :: _ => rw [hu] at hle; simp at hle
        rw [← this]
        simpa [specProof] using hs

variable {ops : List Op} {y : Sys}

/-- C31: a proof returned for a retained version, of a present or an absent key, has exactly the siblings it needs. -/
theorem C31_proof_shape (hr : Reached H ops y) (hb : (setsOf ops).length < 2 ^ 64)
    {v : Version} (hv : Readable ops v) (k : KeyHash) {x : Option Value} {P : SMProof}
    (hg : getWithProof H y.store.reader k v = .ok (x, P)) : Spec.ProofShape H (mapAt ops v) k P := by
  have ra := hr.readAt hb hv
  rw [ra.gwp] at hg
  cases hg
  exact specProof_shape ra.lists

theorem nodup_of_fst {l : List Entry} (hl : (l.map Prod.fst).Nodup) : l.Nodup := by
  induction l with
  | nil => simp
  | cons a l ih =>
    simp only [List.map_cons, List.nodup_cons] at hl ⊢
    exact ⟨fun hm => hl.1 (List.mem_map.2 ⟨a, hm, rfl⟩), ih hl.2⟩

theorem nodeOf_perm {d : Nat} {es es' : List Entry} (h : es.Perm es') : Spec.nodeOf H d es = Spec.nodeOf H d es' := by
  match es, es' with
  | [], [] => rfl
  | [], _ :: _ => simp at h
  | _ :: _, [] => simp at h
  | [e], [e'] => simp at h; rw [h]
  | [_], _ :: _ :: _ => have := h.length_eq; simp at this
  | _ :: _ :: _, [_] => have := h.length_eq; simp at this
  | _ :: _ :: _, _ :: _ :: _ =>
    simp only [Spec.nodeOf]
    rw [subtree_perm _ _ _ (h.filter _), subtree_perm _ _ _ (h.filter _)]

/-- C31: the shape fixes the proof: there is only one proof of that shape. -/
theorem C31_shape_determines {s : Spec.Map} {P Q : SMProof} (hP : Spec.ProofShape H s k P)
    (hQ : Spec.ProofShape H s k Q) : P = Q := by
  have hlen : P.siblings.length = Q.siblings.length := by
    apply Nat.le_antisymm
    · apply Nat.le_of_not_lt
      intro h
      obtain ⟨k₁, k₂, hne, a₁, a₂, b₁, b₂⟩ := hP.needed _ h
      exact hne (hQ.enough _ _ a₁ a₂ b₁ b₂)
    · apply Nat.le_of_not_lt
      intro h
      obtain ⟨k₁, k₂, hne, a₁, a₂, b₁, b₂⟩ := hQ.needed _ h
      exact hne (hP.enough _ _ a₁ a₂ b₁ b₂)
  have hleaf : P.leaf = Q.leaf := by
    apply Option.ext
    intro ⟨k', vh⟩
    rw [hP.leaf, hQ.leaf, hlen]
  have hsib : P.siblings.reverse = Q.siblings.reverse := by
    apply List.ext_getElem?
    intro d
    by_cases hd : d < P.siblings.length
    · obtain ⟨es, l, e⟩ := hP.sibling d hd
      obtain ⟨es', l', e'⟩ := hQ.sibling d (hlen ▸ hd)
      rw [e, e']
      refine congrArg some (nodeOf_perm ?_)
      have n1 : es.Nodup := nodup_of_fst l.nodup
      have n2 : es'.Nodup := nodup_of_fst l'.nodup
      rw [List.perm_ext_iff_of_nodup n1 n2]
      intro ⟨k', vh⟩
      rw [l.mem, l'.mem]
    · rw [List.getElem?_eq_none (by simp; omega), List.getElem?_eq_none (by simp; omega)]
  obtain ⟨pl, ps⟩ := P
  obtain ⟨ql, qs⟩ := Q
  have h3 : ps = qs := by simpa using congrArg List.reverse hsib
  have h4 : pl = ql := hleaf
  rw [h3, h4]

example : ∃ y P, Reached H Sample.ops y ∧ getWithProof H y.store.reader (Sample.key 0x10) 3 = .ok (some [4], P) ∧
    Spec.ProofShape H (mapAt Sample.ops 3) (Sample.key 0x10) P := by
  obtain ⟨y, hy⟩ := Sample.reached H
  obtain ⟨P, h⟩ := C02_get_with_proof_agrees hy Sample.bound Sample.readable3 (Sample.key 0x10)
  exact ⟨y, P, hy, h, C31_proof_shape hy Sample.bound Sample.readable3 _ h⟩

end Jmt
