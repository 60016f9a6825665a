import Verif.Proofs.Ics23Ops
/-!
# What an accepted ics23 existence proof is
-/
namespace Jmt
open Spec (Entry)
open Ics23 (InnerOp ensure)

/-- One step up. -/
def istep (f : List UInt8 → Digest) (i : InnerOp) (h : Digest) : Digest := f (i.pre ++ h.val ++ i.suf)

/-- Climb the operations, given root first. -/
def up (f : List UInt8 → Digest) (h : Digest) (ops : List InnerOp) : Digest := ops.foldr (istep f) h

/-- The strings hashed on the way, given root first. -/
def upStrings (f : List UInt8 → Digest) (h : Digest) : List InnerOp → List (List UInt8)
  | [] => []
  | i :: is => (i.pre ++ (up f h is).val ++ i.suf) :: upStrings f h is

theorem not_isEmpty_digest (h : Digest) : h.val.isEmpty = false := by
  cases hv : h.val with
  | nil => have := h.property; rw [hv] at this; simp at this
  | cons => rfl

theorem climb_ok (f : List UInt8 → Digest) : ∀ (ops : List InnerOp) (h : Digest), (∀ i ∈ ops, i.hash = .sha256) →
    Ics23.climb f ics23Spec.innerSpec ops h.val = .ok (ops.foldl (fun h i => istep f i h) h).val := by
  intro ops
  induction ops with
  | nil => intro h _; rfl
  | cons i ops ih =>
    intro h hs
    have h1 : Ics23.applyInner f i h.val = .ok (istep f i h).val := by
      unfold Ics23.applyInner
      rw [not_isEmpty_digest, hs i (List.mem_cons_self ..)]
      rfl
    rw [Ics23.climb, h1, ok_bind, bind_unit_ok.2 ⟨ensure_ok.2 ?_, ih _ (fun i hi => hs i (List.mem_cons_of_mem _ hi))⟩]
    · rfl
    · rw [(istep f i h).property]; rfl

theorem climbStrings_append (f : List UInt8 → Digest) (a b : List InnerOp) : ∀ (h : Digest),
    Ics23.climbStrings f (a ++ b) h.val = Ics23.climbStrings f a h.val ++
      Ics23.climbStrings f b (a.foldl (fun h i => istep f i h) h).val := by
  induction a with
  | nil => intro h; rfl
  | cons i a ih =>
    intro h
    rw [List.cons_append, Ics23.climbStrings, Ics23.climbStrings, List.cons_append, ih]
    rfl

theorem climbStrings_reverse (f : List UInt8 → Digest) (ops : List InnerOp) (h : Digest) :
    Ics23.climbStrings f ops.reverse h.val = (upStrings f h ops).reverse := by
  induction ops with
  | nil => rfl
  | cons i ops ih =>
    rw [List.reverse_cons, climbStrings_append, ih, upStrings, List.reverse_cons]
    congr 1
    rw [List.foldl_reverse]
    rfl

theorem ensureInner_hash {i : InnerOp} (h : Ics23.ensureInner i ics23Spec = .ok ()) : i.hash = .sha256 := by
  unfold Ics23.ensureInner at h
  rw [ensure_ok] at h
  simp only [Bool.and_eq_true, decide_eq_true_eq] at h
  exact h.1.1.1.1.symm

/-- What the checks on the leaf operation leave. -/
theorem ensureLeaf_iff {l : Ics23.LeafOp} : Ics23.ensureLeaf l ics23Spec.leafSpec = .ok () ↔
    ∃ ext, l = ⟨.sha256, .sha256, .sha256, .noPrefix, leafSep ++ ext⟩ := by
  unfold Ics23.ensureLeaf
  rw [ensure_ok]
  simp only [Bool.and_eq_true, decide_eq_true_eq, List.isPrefixOf_iff_prefix]
  constructor
  · rintro ⟨⟨⟨⟨h1, h2⟩, h3⟩, h4⟩, ext, h5⟩
    refine ⟨ext, ?_⟩
    obtain ⟨a, b, c, d, e⟩ := l
    simp only [ics23Spec, ics23LeafOp] at h1 h2 h3 h4 h5
    rw [← h1, ← h2, ← h3, ← h4, ← h5]
  · rintro ⟨ext, rfl⟩
    exact ⟨⟨⟨⟨rfl, rfl⟩, rfl⟩, rfl⟩, List.prefix_append _ _⟩

theorem applyLeaf_ok (f : List UInt8 → Digest) (ext : List UInt8) {key value : List UInt8} (hk : key ≠ []) (hv : value ≠ []) :
    Ics23.applyLeaf f ⟨.sha256, .sha256, .sha256, .noPrefix, leafSep ++ ext⟩ key value =
      .ok (f (leafSep ++ ext ++ (f key).val ++ (f value).val)).val := by
  have h : ∀ {d : List UInt8}, d ≠ [] → Ics23.prepareLeafData f .sha256 .noPrefix d = .ok (f d).val := by
    intro d hd
    unfold Ics23.prepareLeafData
    cases d with
    | nil => exact absurd rfl hd
    | cons a d => rfl
  unfold Ics23.applyLeaf
  rw [h hk, h hv]
  rfl

/-- Acceptance by the ics23 verifier, unfolded. -/
theorem verifyExistence_iff {f : List UInt8 → Digest} {p : Ics23.ExistenceProof} {root : Digest} {key value : List UInt8} :
    Ics23.verifyExistence f p ics23Spec root.val key value = .ok () ↔
      ∃ ext, p = ⟨key, value, some ⟨.sha256, .sha256, .sha256, .noPrefix, leafSep ++ ext⟩, p.path⟩ ∧
        p.path.length ≤ 64 ∧ (∀ i ∈ p.path, Ics23.ensureInner i ics23Spec = .ok ()) ∧ key ≠ [] ∧ value ≠ [] ∧
        up f (f (leafSep ++ ext ++ (f key).val ++ (f value).val)) p.path.reverse = root := by
  unfold Ics23.verifyExistence
  have hup : ∀ (h : Digest), up f h p.path.reverse = p.path.foldl (fun h i => istep f i h) h := by
    intro h; unfold up; rw [List.foldr_reverse]
  rw [bind_unit_ok, bind_unit_ok, bind_unit_ok, ensure_ok, ensure_ok, decide_eq_true_eq, decide_eq_true_eq]
  constructor
  · rintro ⟨h1, h2, h3, h4⟩
    unfold Ics23.checkExistenceSpec at h1
    unfold Ics23.calculateRoot at h4
    cases hl : p.leaf with
    | none => rw [hl] at h1; cases h1
    | some l =>
      rw [hl] at h1 h4
      simp only [bind_unit_ok, ensure_ok] at h1
      obtain ⟨a1, -, a3, a4⟩ := h1
      obtain ⟨ext, rfl⟩ := ensureLeaf_iff.1 a1
      rw [ensureInners_iff] at a4
      obtain ⟨r, h4, h5⟩ := bind_ok_inv h4
      rw [ensure_ok, decide_eq_true_eq] at h5
      simp only [bind_unit_ok, ensure_ok] at h4
      obtain ⟨b1, b2, h4⟩ := h4
      rw [h2] at b1 h4
      rw [h3] at b2 h4
      have hk : key ≠ [] := by rintro rfl; cases b1
      have hv : value ≠ [] := by rintro rfl; cases b2
      rw [applyLeaf_ok f ext hk hv, ok_bind, climb_ok f _ _ (fun i hi => ensureInner_hash (a4 i hi))] at h4
      refine ⟨ext, ?_, ?_, a4, hk, hv, ?_⟩
      · obtain ⟨a, b, c, d⟩ := p
        simp only at h2 h3 hl ⊢
        rw [h2, h3, hl]
      · have : ics23Spec.maxDepth = 64 := rfl
        rw [this] at a3
        simpa using a3
      · rw [hup]
        cases h4
        exact Subtype.ext h5
  · rintro ⟨ext, h1, h2, h3, hk, hv, h4⟩
    have e1 : p.leaf = some ⟨.sha256, .sha256, .sha256, .noPrefix, leafSep ++ ext⟩ := by rw [h1]
    have e2 : p.key = key := by rw [h1]
    have e3 : p.value = value := by rw [h1]
    refine ⟨?_, e2, e3, ?_⟩
    · unfold Ics23.checkExistenceSpec
      rw [e1]
      simp only [bind_unit_ok, ensure_ok]
      refine ⟨ensureLeaf_iff.2 ⟨ext, rfl⟩, rfl, ?_, ensureInners_iff.2 h3⟩
      have : ics23Spec.maxDepth = 64 := rfl
      rw [this]
      simpa using h2
    · unfold Ics23.calculateRoot
      rw [e1, e2, e3]
      have b1 : (!key.isEmpty) = true := by cases key with
        | nil => exact absurd rfl hk
        | cons => rfl
      have b2 : (!value.isEmpty) = true := by cases value with
        | nil => exact absurd rfl hv
        | cons => rfl
      rw [b1, b2]
      simp only [applyLeaf_ok f ext hk hv, ok_bind, climb_ok f _ _ (fun i hi => ensureInner_hash (h3 i hi))]
      rw [hup] at h4
      show (ensure true >>= fun _ => _) = _
      rw [h4]
      simp [ensure, ok_bind]

/-- The strings of an accepted proof. -/
theorem strings_eq {f : List UInt8 → Digest} {key value ext : List UInt8} {path : List InnerOp} (s : List UInt8) :
    s ∈ Ics23.strings f ⟨key, value, some ⟨.sha256, .sha256, .sha256, .noPrefix, leafSep ++ ext⟩, path⟩ ↔
      s = leafSep ++ ext ++ (f key).val ++ (f value).val ∨
      s ∈ upStrings f (f (leafSep ++ ext ++ (f key).val ++ (f value).val)) path.reverse := by
  have h := climbStrings_reverse f path.reverse (f (leafSep ++ ext ++ (f key).val ++ (f value).val))
  rw [List.reverse_reverse] at h
  unfold Ics23.strings Ics23.leafString
  simp only
  rw [List.mem_cons, h, List.mem_reverse]

end Jmt
