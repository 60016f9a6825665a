import Verif.Proofs.Sys
/-!
# `get_with_proof` returns the canonical proof
-/
namespace Jmt
open Spec (Entry)

/-- The value returned with a proof whose leaf is `leaf`. -/
def gwpVal (R : Reader) (v : Version) (k : KeyHash) :
    Option (KeyHash × ValueHash) → Except Err (Option Value)
  | some e => if e.1 = k then (do let x ← R.getValue v e.1; .ok (some x)) else .ok none
  | none => .ok none

section
variable {H : Hasher} {R : Reader} {k : KeyHash} {v : Version} {m : List Entry}
  {ver : List Nibble → Version} {p rem : List Nibble}

theorem gwp_leaf {nk : NodeKey} {e : Entry} (h : R.getNode nk = .ok (.leaf ⟨e.1, e.2⟩)) (fuel depth : Nat)
    (rem sibs) : getWithProofLoop H R k v (fuel + 1) depth nk rem sibs
      = (gwpVal R v k (some e) >>= fun x => .ok (x, ⟨some e, sibs.reverse⟩)) := by
  unfold getWithProofLoop
  rw [h]
  rfl

theorem TreeAt.kids (t : TreeAt H R.getNodeOption v m ver) (h2 : 2 ≤ (under p m).length) :
    KnowsKids H m ver p R.getNode := by
  intro i hi
  have := t.node (p ++ [i]) (by simp) (by
    rw [pres_nil_iff]; exact ⟨hi, .inr (by simpa using h2)⟩)
  unfold Reader.getNode; rw [this]

theorem gwp_loop (hm : NodupE m) (t : TreeAt H R.getNodeOption v m ver) :
    ∀ (rem p : List Nibble) (nk : NodeKey) (fuel depth : Nat) (sibs : List SMNode),
      nk.path = p → R.getNode nk = .ok (canonNode H m ver p) → under p m ≠ [] → rem.length + p.length = 64 →
      rem.length < fuel →
      getWithProofLoop H R k v fuel depth nk rem sibs =
        (gwpVal R v k (ub (walk H m (pathBits p) (pathBits rem)).2 m).head? >>= fun x =>
          .ok (x, ⟨(ub (walk H m (pathBits p) (pathBits rem)).2 m).head?,
            (sibs ++ (walk H m (pathBits p) (pathBits rem)).1).reverse⟩)) := by
  intro rem
  induction rem with
  | nil =>
    intro p nk fuel depth sibs hp hn hne hl hf
    obtain ⟨fuel, rfl⟩ : ∃ f, fuel = f + 1 := ⟨fuel - 1, by omega⟩
    rcases len_cases (under p m) with h | ⟨e, h⟩ | h
    · exact absurd h hne
    · rw [canonNode_one h] at hn
      rw [gwp_leaf hn]
      have h' : ub (pathBits p) m = [e] := h
      simp [walk, h']
    · have := under_length_lt_of_two hm h
      simp at hl; omega
  | cons i rem ih =>
    intro p nk fuel depth sibs hp hn hne hl hf
    obtain ⟨fuel, rfl⟩ : ∃ f, fuel = f + 1 := ⟨fuel - 1, by omega⟩
    rcases len_cases (under p m) with h | ⟨e, h⟩ | h
    · exact absurd h hne
    · rw [canonNode_one h] at hn
      rw [gwp_leaf hn]
      have h' : ub (pathBits p) m = [e] := h
      rw [walk_stop (by rw [h']; simp)]
      simp [h']
    · rw [canonNode_two h] at hn
      obtain ⟨w, q⟩ := nk
      simp only at hp; subst hp
      obtain ⟨ck, hck, hres⟩ := onlyChild_canon hm (canonSlots_self (H := H) (m := m) (ver := ver)) h (t.kids h) w i
      unfold getWithProofLoop
      rw [hn]
      simp only [ok_bind, hck]
      rw [pathBits_cons, walk_append]
      rcases len_cases (ub (walk H m (pathBits q) (nibbleBits i)).2 m) with g | ⟨e, g⟩ | g
      · rw [hres.nil g]
        rw [walk_stop (b := (walk H m (pathBits q) (nibbleBits i)).2) (by rw [g]; simp)]
        simp [g, gwpVal]
      · obtain ⟨j, hj1, hj2⟩ := hres.one e g
        rw [hj1]
        rw [walk_stop (b := (walk H m (pathBits q) (nibbleBits i)).2) (by rw [g]; simp)]
        have hk := t.kids h j (by rw [hj2]; simp)
        rw [canonNode_one hj2] at hk
        obtain ⟨fuel, rfl⟩ : ∃ f, fuel = f + 1 := ⟨fuel - 1, by simp at hf; omega⟩
        simp only
        rw [gwp_leaf hk]
        simp [g]
      · obtain ⟨hj1, hj2⟩ := hres.two g
        rw [hj2]
        rw [hj1] at g ⊢
        have hne' : under (q ++ [i]) m ≠ [] := by
          intro hc; have : (under (q ++ [i]) m).length = 0 := by rw [hc]; rfl
          unfold under at this; omega
        have hk := t.kids h i hne'
        simp only
        rw [ih (q ++ [i]) _ fuel (depth + 1) _ rfl hk hne' (by simp at hl ⊢; omega) (by simp at hf; omega)]
        simp

theorem getNode_root (t : TreeAt H R.getNodeOption v m ver) :
    R.getNode (NodeKey.root v) = .ok (canonNode H m ver []) := by
  have := t.root
  unfold Reader.getNode NodeKey.root; rw [this]

theorem getWithProof_spec (hm : NodupE m) (t : TreeAt H R.getNodeOption v m ver) :
    getWithProof H R k v = (gwpVal R v k (specProof H m k).leaf >>= fun x => .ok (x, specProof H m k)) := by
  unfold getWithProof
  by_cases hne : m = []
  · subst hne
    have := getNode_root t
    rw [canonNode_nil (by simp)] at this
    unfold getWithProofLoop
    rw [this]
    have hw : walk H [] [] (keyBits k) = ([], []) := walk_stop (by simp) _
    simp [specProof, hw, ok_bind, gwpVal]
  · rw [gwp_loop hm t k.nibbles [] _ _ _ _ rfl (getNode_root t) (by simpa using hne)
      (by rw [nibbles_length]; rfl) (by rw [nibbles_length]; decide)]
    simp [specProof, keyBits]

end

/-- Where the walk towards `k` ends: exactly the entries there; `k` itself if present. -/
theorem walk_mem {H : Hasher} {m : List Entry} (hm : NodupE m) (k : KeyHash) :
    (ub (walk H m [] (keyBits k)).2 m).length ≤ 1 ∧ (walk H m [] (keyBits k)).2 <+: keyBits k := by
  have hpre := walk_prefix (H := H) (m := m) [] (keyBits k)
  rw [List.nil_append] at hpre
  refine ⟨?_, hpre⟩
  rcases walk_end (H := H) (m := m) [] (keyBits k) with h | h
  · exact h
  · apply ub_length_le_one hm
    rw [h]
    simp [keyBits, pathBits_length, nibbles_length]

theorem specProof_leaf_iff {H : Hasher} {m : List Entry} (hm : NodupE m) (k : KeyHash) (vh : ValueHash) :
    (specProof H m k).leaf = some (k, vh) ↔ (k, vh) ∈ m := by
  obtain ⟨h1, h2⟩ := walk_mem (H := H) hm k
  unfold specProof
  simp only
  constructor
  · intro h
    have := List.mem_of_head? h
    exact (mem_ub.1 this).1
  · intro h
    have : (k, vh) ∈ ub (walk H m [] (keyBits k)).2 m := mem_ub.2 ⟨h, h2⟩
    match hu : ub (walk H m [] (keyBits k)).2 m with
    | [] => rw [hu] at this; simp at this
    | [e] => rw [hu] at this; simp at this; simp [this]
    | _ :: _ :: _ => rw [hu] at h1; simp at h1

theorem specProof_leaf_key {H : Hasher} {m : List Entry} (hm : NodupE m) (k : KeyHash) :
    (∃ vh, (specProof H m k).leaf = some (k, vh)) ↔ ∃ vh, (k, vh) ∈ m := by
  constructor <;> rintro ⟨vh, h⟩ <;> exact ⟨vh, by simpa [specProof_leaf_iff hm] using h⟩

end Jmt
