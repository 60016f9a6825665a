import Verif.Proofs.Ics23Adjacent
import Verif.Props.Exclusion
import Verif.Props.Stale
/-!
# C28: ics23 proofs

`Verif/Spec/Ics23.lean` is the external verifier.  The hash function of the tree is an arbitrary digest `f` on byte
strings, the same one the verifier uses for `HashOp::Sha256`.
-/
namespace Jmt
open Spec (Entry Lists)

/-- What the ics23 verifier demands besides correctness: a non-empty key, a non-empty value, and no more than the 64 inner
operations allowed by `ics23_spec`. -/
def Ics23.ExistenceProof.WithinLimits (e : Ics23.ExistenceProof) : Prop := e.key ≠ [] ∧ e.value ≠ [] ∧ e.path.length ≤ 64

variable {f : List UInt8 → Digest}

theorem ofDigest_hash (f : List UInt8 → Digest) (d : List UInt8) : (Hasher.ofDigest f).hash d = f d := by
  simp [Hasher.hash, Hasher.ofDigest]

theorem conversion_ok (checked : Bool) {key value : List UInt8} {P : SMProof} {root : Digest} (hn : P.siblings.length ≤ 256)
    (hp : Spec.pathHash (.ofDigest f) (f key) ((Hasher.ofDigest f).leafHash (f key) (f value)) 0 P.siblings.reverse = root) :
    ∃ e, ics23Existence (.ofDigest f) checked key value P = .ok e ∧ e.key = key ∧ e.value = value ∧
      e.path = ((List.zipWith (fun x (s : SMNode) => (x, s.hash (.ofDigest f))) (keyBits (f key)) P.siblings.reverse).map iop).reverse ∧
      e.path.length = P.siblings.length ∧
      (Ics23.verifyExistence f e ics23Spec root.val key value = .ok () ↔ e.WithinLimits) := by
  have h := ics23Existence_eq (H := .ofDigest f) checked key value P hn
  rw [ofDigest_hash] at h
  have hlen : ((List.zipWith (fun x (s : SMNode) => (x, s.hash (.ofDigest f))) (keyBits (f key)) P.siblings.reverse).map iop).reverse.length =
      P.siblings.length := by simp; omega
  have hup := up_iops f (f key) ((Hasher.ofDigest f).leafHash (f key) (f value)) P.siblings.reverse 0 (keyBits (f key)) rfl (by simpa using hn)
  rw [hp] at hup
  refine ⟨_, h, rfl, rfl, rfl, hlen, ?_⟩
  rw [verifyExistence_iff]
  unfold Ics23.ExistenceProof.WithinLimits
  constructor
  · rintro ⟨ext, -, h1, -, h2, h3, -⟩
    exact ⟨h2, h3, h1⟩
  · rintro ⟨h2, h3, h1⟩
    refine ⟨[], rfl, h1, ?_, h2, h3, ?_⟩
    · intro i hi
      rw [List.mem_reverse, List.mem_map] at hi
      obtain ⟨p, -, rfl⟩ := hi
      exact ensureInner_iop p
    · simp only [List.reverse_reverse, List.append_nil]
      rw [← hup]
      congr 1

/-- C28: the conversion of any existence proof that the crate itself accepts is an ics23 proof of the same key and value, and
the ics23 verifier accepts it against the same root exactly when it is within the limits of the format. -/
theorem C28_conversion (checked : Bool) {key value : List UInt8} {P : SMProof} {root : Digest}
    (h : P.verifyExistence (.ofDigest f) root (f key) value = .ok ()) :
    ∃ e, ics23Existence (.ofDigest f) checked key value P = .ok e ∧ e.key = key ∧ e.value = value ∧
      e.path.length = P.siblings.length ∧
      (Ics23.verifyMembership f (.exist e) ics23Spec root.val key value = .ok () ↔
        key ≠ [] ∧ value ≠ [] ∧ P.siblings.length ≤ 64) := by
  unfold SMProof.verifyExistence at h
  rw [verify_iff] at h
  obtain ⟨h1, h2, h3⟩ := h
  have hleaf : P.leaf = some (f key, f value) := by
    unfold SMProof.checkLeaf at h2
    cases hl : P.leaf with
    | none => rw [hl] at h2; cases h2
    | some l =>
      rw [hl] at h2
      simp only [ofDigest_hash] at h2
      split at h2
      · cases h2
      · split at h2
        · cases h2
        · next a b => simp only [ne_eq, Decidable.not_not] at a b; rw [a, b]
  rw [hleaf] at h3
  obtain ⟨e, a1, a2, a3, -, a5, a6⟩ := conversion_ok checked h1 h3
  refine ⟨e, a1, a2, a3, a5, ?_⟩
  show Ics23.verifyExistence f e ics23Spec root.val key value = .ok () ↔ _
  rw [a6]
  unfold Ics23.ExistenceProof.WithinLimits
  rw [a2, a3, a5]

variable {ops : List Op} {y : Sys}

/-- C28 for a present key of a readable version: the value, and an ics23 proof accepted against the root hash exactly when it
is within the limits. -/
theorem C28_present (checked : Bool) (hr : Reached (.ofDigest f) ops y) (hb : (setsOf ops).length < 2 ^ 64) {v : Version}
    (hv : Readable ops v) {key : List UInt8} {x : Value} (hx : mapAt ops v (f key) = some x)
    (pre : KeyHash → Except Err (Option (List UInt8))) :
    ∃ e root, getWithIcs23Proof (.ofDigest f) checked y.store.reader pre key v = .ok (some x, .exist e) ∧
      getRootHash (.ofDigest f) y.store.reader v = .ok root ∧
      (Ics23.verifyMembership f (.exist e) ics23Spec root.val key x = .ok () ↔ key ≠ [] ∧ x ≠ [] ∧ e.path.length ≤ 64) := by
  obtain ⟨P, r, h1, -, h3, h4⟩ := C27_present_key hr hb hv hx
  obtain ⟨e, a1, a2, a3, a4, a5⟩ := C28_conversion checked h4
  refine ⟨e, r, ?_, h3, by rw [a4]; exact a5⟩
  unfold getWithIcs23Proof
  rw [ofDigest_hash, h1, ok_bind]
  simp only [a1, ok_bind]

/-- The exclusion proof given by the neighbours. -/
def exclusionOf (H : Hasher) (m : List Entry) : Option KeyHash → Option KeyHash → Option ExclusionProof
  | some l, some r => some (.middle (specProof H m r) (specProof H m l))
  | some l, none => some (.rightmost (specProof H m l))
  | none, some r => some (.leftmost (specProof H m r))
  | none, none => none

theorem exclusion_spec {H : Hasher} {R : Reader} {v : Version} {mp : Spec.Map} {m : List Entry} (ra : ReadTree H R v mp m) {k : KeyHash}
    (habs : mp k = none) (hmne : m ≠ []) :
    ∃ l r ep, IsPred m k l ∧ IsSucc m k r ∧ getWithExclusionProof H R k v = .ok (.inr ep) ∧
      exclusionOf H m l r = some ep := by
  obtain ⟨ver, t⟩ := ra.tree
  have hk : ∀ e ∈ m, e.1 ≠ k := fun e he hc => (ra.lists.key k).1 ⟨e, he, hc⟩ habs
  obtain ⟨l, r, h1, h2, h3⟩ := getBoundingPath_spec (k := k) ra.nodup t hmne hk
  refine ⟨l, r, ?_⟩
  unfold getWithExclusionProof
  rw [ra.gwp, habs, ok_bind]
  simp only [h1, ok_bind]
  match l, r, h2, h3 with
  | none, none, h2, h3 =>
    exfalso
    obtain ⟨e, es, rfl⟩ := List.exists_cons_of_ne_nil hmne
    have a := h2 e (List.mem_cons_self ..)
    have b := h3 e (List.mem_cons_self ..)
    exact hk e (List.mem_cons_self ..) (Subtype.ext (List.le_antisymm (List.not_lt.1 b) (List.not_lt.1 a)))
  | none, some r, h2, h3 => simp only [ra.gwp, ok_bind]; exact ⟨_, h2, h3, rfl, rfl⟩
  | some l, none, h2, h3 => simp only [ra.gwp, ok_bind]; exact ⟨_, h2, h3, rfl, rfl⟩
  | some l, some r, h2, h3 => simp only [ra.gwp, ok_bind]; exact ⟨_, h2, h3, rfl, rfl⟩

/-- `HasPreimage` knows a preimage of every key of the map. -/
def KnowsPreimages (f : List UInt8 → Digest) (mp : Spec.Map) (pre : KeyHash → Except Err (Option (List UInt8))) : Prop :=
  ∀ k, mp k ≠ none → ∃ p, pre k = .ok (some p) ∧ f p = k

theorem neighbour_spec (checked preFirst : Bool) {R : Reader} {v : Version} {mp : Spec.Map} {m : List Entry}
    (ra : ReadTree (.ofDigest f) R v mp m) {pre} (hpre : KnowsPreimages f mp pre) {k : KeyHash} (hk : ∃ e ∈ m, e.1 = k) :
    ∃ e, ics23Neighbour (.ofDigest f) checked preFirst R pre v (specProof (.ofDigest f) m k) = .ok e ∧
      f e.key = k ∧ mp k = some e.value ∧
      e.path = (hops (.ofDigest f) m [] (keyBits k)).reverse.map iop ∧
      (Ics23.verifyExistence f e ics23Spec (sh (.ofDigest f) m []).val e.key e.value = .ok () ↔ e.WithinLimits) := by
  have hk' := (ra.lists.key k).1 hk
  obtain ⟨x, hx⟩ := Option.ne_none_iff_exists'.1 hk'
  obtain ⟨p, hp1, hp2⟩ := hpre k hk'
  have hmem : (k, f x) ∈ m := by
    have := (ra.lists.mem k (f x)).2 ⟨x, hx, (ofDigest_hash f x).symm⟩
    exact this
  have hleaf := (specProof_leaf_iff (H := .ofDigest f) ra.nodup k (f x)).2 hmem
  have hroot := specProof_root (H := .ofDigest f) (k := k) ra.nodup
  rw [hleaf] at hroot
  have hn := specProof_len (.ofDigest f) m k
  obtain ⟨e, a1, a2, a3, a4, -, a6⟩ := conversion_ok (f := f) (root := sh (.ofDigest f) m []) checked (key := p) (value := x) hn
    (by rw [hp2]; exact hroot)
  refine ⟨e, ?_, by rw [a2, hp2], by rw [hx, a3], ?_, by rw [a2, a3]; exact a6⟩
  · unfold ics23Neighbour
    rw [hleaf]
    have hget : ics23Value R k v = .ok x := by
      unfold ics23Value Jmt.get
      rw [ra.present k x hx]; rfl
    have hpr : ics23Preimage pre k = .ok p := by
      unfold ics23Preimage
      rw [hp1]; rfl
    cases preFirst
    · simp only [hget, hpr, ok_bind, Bool.false_eq_true, if_false, a1]
    · simp only [hget, hpr, ok_bind, if_true, a1]
  · rw [a4, hp2, hops_walk ra.nodup, List.map_reverse]
    unfold specProof
    simp only [List.reverse_reverse]

/-- C28 for an absent key of a readable version of a non-empty map: no value, and an ics23 proof made of the true neighbours with
their values, accepted against the root hash exactly when the proofs of the neighbours are within the limits. -/
theorem C28_absent (checked : Bool) (hr : Reached (.ofDigest f) ops y) (hb : (setsOf ops).length < 2 ^ 64) {v : Version}
    (hv : Readable ops v) {key : List UInt8} (habs : mapAt ops v (f key) = none) (hne : ∃ k' x, mapAt ops v k' = some x)
    {pre : KeyHash → Except Err (Option (List UInt8))} (hpre : KnowsPreimages f (mapAt ops v) pre) :
    ∃ n root, getWithIcs23Proof (.ofDigest f) checked y.store.reader pre key v = .ok (none, .nonexist n) ∧
      getRootHash (.ofDigest f) y.store.reader v = .ok root ∧ n.key = key ∧
      Spec.IsPredKey (mapAt ops v) (f key) (n.left.map (fun e => f e.key)) ∧
      Spec.IsSuccKey (mapAt ops v) (f key) (n.right.map (fun e => f e.key)) ∧
      (∀ e, n.left = some e ∨ n.right = some e → mapAt ops v (f e.key) = some e.value) ∧
      (Ics23.verifyNonMembership f (.nonexist n) ics23Spec root.val key = .ok () ↔
        ∀ e, n.left = some e ∨ n.right = some e → e.WithinLimits) := by
  have ra := hr.readAt hb hv
  generalize hm : entriesAfter (.ofDigest f) (setsOf ops) (v + 1) = m at ra
  have hmne : m ≠ [] := by
    obtain ⟨k', x, hx⟩ := hne
    obtain ⟨e, he, -⟩ := (ra.lists.key k').2 (by simp [hx])
    exact List.ne_nil_of_mem he
  obtain ⟨l, r, ep, p1, p2, p3, p4⟩ := exclusion_spec ra.toReadTree habs hmne
  have q1 := isPred_key ra.lists p1
  have q2 := isSucc_key ra.lists p2
  have hnb := fun (preFirst : Bool) {k : KeyHash} hk => neighbour_spec checked preFirst ra.toReadTree hpre (k := k) hk
  have hkc : ∀ d : List UInt8, Ics23.keyForComparison f ics23Spec d = .ok (f d).val := fun d => rfl
  unfold getWithIcs23Proof
  rw [ofDigest_hash, p3, ok_bind]
  simp only
  match l, r, p1, p2, q1, q2, p4 with
  | none, none, _, _, _, _, p4 => cases p4
  | none, some r, p1, p2, q1, q2, p4 =>
    cases p4
    obtain ⟨e, a1, a2, a3, a4, a5⟩ := hnb true p2.2.1
    unfold ics23Nonexistence
    simp only [a1, ok_bind]
    refine ⟨_, _, rfl, ra.rootHash, rfl, q1, by rw [← a2] at q2; exact q2, ?_, ?_⟩
    · rintro e' (h | h)
      · cases h
      · cases h; rw [a2]; exact a3
    · show Ics23.verifyNonExistence f _ _ _ _ = _ ↔ _
      unfold Ics23.verifyNonExistence Ics23.checkLeft Ics23.checkRight
      simp only [hkc, ok_bind]
      rw [bind_unit_ok, bind_unit_ok, ensure_ok, decide_eq_true_eq, root_eq_sh, a5, a4, ensureLeftMost_iff, a2]
      constructor
      · rintro ⟨⟨h, -⟩, -⟩ e' (h' | h')
        · cases h'
        · cases h'; exact h
      · intro h
        refine ⟨⟨h e (.inr rfl), p2.1⟩, ?_⟩
        obtain ⟨⟨k, vh⟩, h1, rfl⟩ := p2.2.1
        have := (most_iff (H := .ofDigest f) ra.nodup false h1 (keyBits k) [] rfl).2 (by
          intro e' he' hc
          have he' : e' ∈ m := (mem_ub.1 he').1
          have hc : e'.1.val < k.val := hc
          by_cases hlt : (f key).val < e'.1.val
          · exact p2.2.2 e' he' hlt hc
          · rcases Std.lt_trichotomy e'.1.val (f key).val with h | h | h
            · exact p1 e' he' h
            · exact (ra.lists.key (f key)).1 ⟨e', he', Subtype.ext h⟩ habs
            · exact hlt h)
        intro p hp
        exact this p (List.mem_reverse.1 hp)
  | some l, none, p1, p2, q1, q2, p4 =>
    cases p4
    obtain ⟨e, a1, a2, a3, a4, a5⟩ := hnb false p1.2.1
    unfold ics23Nonexistence
    simp only [a1, ok_bind]
    refine ⟨_, _, rfl, ra.rootHash, rfl, by rw [← a2] at q1; exact q1, q2, ?_, ?_⟩
    · rintro e' (h | h)
      · cases h; rw [a2]; exact a3
      · cases h
    · show Ics23.verifyNonExistence f _ _ _ _ = _ ↔ _
      unfold Ics23.verifyNonExistence Ics23.checkLeft Ics23.checkRight
      simp only [hkc, ok_bind]
      rw [bind_unit_ok, bind_unit_ok, ensure_ok, decide_eq_true_eq, root_eq_sh, a5, a4, ensureRightMost_iff, a2]
      constructor
      · rintro ⟨⟨h, -⟩, -⟩ e' (h' | h')
        · cases h'; exact h
        · cases h'
      · intro h
        refine ⟨⟨h e (.inl rfl), p1.1⟩, ?_⟩
        obtain ⟨⟨k, vh⟩, h1, rfl⟩ := p1.2.1
        have := (most_iff (H := .ofDigest f) ra.nodup true h1 (keyBits k) [] rfl).2 (by
          intro e' he' hc
          have he' : e' ∈ m := (mem_ub.1 he').1
          have hc : k.val < e'.1.val := hc
          by_cases hlt : e'.1.val < (f key).val
          · exact p1.2.2 e' he' hlt hc
          · rcases Std.lt_trichotomy e'.1.val (f key).val with h | h | h
            · exact hlt h
            · exact (ra.lists.key (f key)).1 ⟨e', he', Subtype.ext h⟩ habs
            · exact p2 e' he' h)
        intro p hp
        exact this p (List.mem_reverse.1 hp)
  | some l, some r, p1, p2, q1, q2, p4 =>
    cases p4
    obtain ⟨e, a1, a2, a3, a4, a5⟩ := hnb false p1.2.1
    obtain ⟨e', b1, b2, b3, b4, b5⟩ := hnb false p2.2.1
    unfold ics23Nonexistence
    simp only [a1, b1, ok_bind]
    refine ⟨_, _, rfl, ra.rootHash, rfl, by rw [← a2] at q1; exact q1, by rw [← b2] at q2; exact q2, ?_, ?_⟩
    · rintro e'' (h | h)
      · cases h; rw [a2]; exact a3
      · cases h; rw [b2]; exact b3
    · show Ics23.verifyNonExistence f _ _ _ _ = _ ↔ _
      unfold Ics23.verifyNonExistence Ics23.checkLeft Ics23.checkRight
      simp only [hkc, ok_bind]
      rw [bind_unit_ok, bind_unit_ok, bind_unit_ok, bind_unit_ok, ensure_ok, ensure_ok, decide_eq_true_eq, decide_eq_true_eq,
        root_eq_sh, a5, b5, a4, b4, ensureLeftNeighbor_iff, a2, b2]
      constructor
      · rintro ⟨⟨h, -⟩, ⟨h', -⟩, -⟩ e'' (h'' | h'')
        · cases h''; exact h
        · cases h''; exact h'
      · intro h
        refine ⟨⟨h e (.inl rfl), p1.1⟩, ⟨h e' (.inr rfl), p2.1⟩, ?_⟩
        have hlr : l.val < r.val := List.lt_trans p1.1 p2.1
        obtain ⟨⟨l, vl⟩, h1, rfl⟩ := p1.2.1
        obtain ⟨⟨r, vr⟩, h2, rfl⟩ := p2.2.1
        refine (adjacent_iff (H := .ofDigest f) ra.nodup h1 h2 (by
          intro hc; rw [hc] at hlr; exact List.lt_irrefl _ hlr) (keyBits l) (keyBits r) [] rfl rfl).2 hlr ?_
        rintro e'' he'' ⟨g1, g2⟩
        have he'' : e'' ∈ m := (mem_ub.1 he'').1
        rcases Std.lt_trichotomy e''.1.val (f key).val with h | h | h
        · exact p1.2.2 e'' he'' h g1
        · exact (ra.lists.key (f key)).1 ⟨e'', he'', Subtype.ext h⟩ habs
        · exact p2.2.2 e'' he'' h g2

/-! ### Soundness of `ics23_spec` -/

/-- An accepted ics23 existence proof against the root of a tree is the path of an entry of the tree. -/
theorem ics_sound {m : List Entry} (hm : NodupE m) {e : Ics23.ExistenceProof} {key value : List UInt8}
    (hv : Ics23.verifyExistence f e ics23Spec (sh (.ofDigest f) m []).val key value = .ok ())
    (hnc : Ics23.NoCollision f ((ts (.ofDigest f) m []).map Spec.Preimage.bytes ++ Ics23.strings f e)) :
    (f key, f value) ∈ m ∧ e.path = (hops (.ofDigest f) m [] (keyBits (f key))).reverse.map iop ∧
      e.key = key ∧ e.value = value ∧ e.leaf = some ics23LeafOp := by
  rw [verifyExistence_iff] at hv
  obtain ⟨ext, h1, -, h3, -, -, h4⟩ := hv
  obtain ⟨xs, a1, a2, a3⟩ := ics_bind hm e.path.reverse [] (fun i hi => h3 i (List.mem_reverse.1 hi)) h4 (hnc.sub (by
    intro a ha
    rw [h1]
    rcases List.mem_append.1 ha with ha | ha
    · exact List.mem_append_left _ ha
    · exact List.mem_append_right _ ((strings_eq a).2 (by simpa using ha))))
  rw [List.nil_append] at a1
  have hmem : (f key, f value) ∈ ub xs m := by rw [a1]; simp
  obtain ⟨g1, t, g2⟩ := mem_ub.1 hmem
  refine ⟨g1, ?_, by rw [h1], by rw [h1], by rw [h1, a3]; rfl⟩
  have : hops (.ofDigest f) m [] (keyBits (f key)) = hops (.ofDigest f) m [] xs := by
    simp only at g2
    rw [← g2]
    exact hops_append_stop xs t [] (by rw [List.nil_append, a1]; simp)
  rw [this, List.map_reverse, ← a2, List.reverse_reverse]

/-- C28, soundness: an ics23 proof, from anyone, that the verifier accepts under `ics23_spec` for `key` and `value` against the
root of a map means that the map has a value of the same hash at `key`. -/
theorem C28_membership_sound {s : Spec.Map} {es} (hl : Lists (.ofDigest f) s es) (c : Ics23.CommitmentProof) (e : Ics23.ExistenceProof)
    (hc : c = .exist e) (key value : List UInt8)
    (hnc : Ics23.NoCollision f ((Spec.treeStrings (.ofDigest f) es).map Spec.Preimage.bytes ++ Ics23.strings f e))
    (hv : Ics23.verifyMembership f c ics23Spec (Spec.root (.ofDigest f) es).val key value = .ok ()) :
    ∃ x, s (f key) = some x ∧ f value = f x := by
  subst hc
  rw [root_eq_sh] at hv
  obtain ⟨h1, -⟩ := ics_sound (nodupE_of_lists hl) hv (by unfold ts; simpa [Spec.treeStrings] using hnc)
  obtain ⟨x, hx, h2⟩ := (hl.mem _ _).1 h1
  exact ⟨x, hx, by rw [ofDigest_hash] at h2; exact h2⟩

/-- C28, soundness: an ics23 non-existence proof, from anyone, that the verifier accepts under `ics23_spec` against the root of a
map means that the map has no value at `key`. -/
theorem C28_nonmembership_sound {s : Spec.Map} {es} (hl : Lists (.ofDigest f) s es) (n : Ics23.NonExistenceProof) (key : List UInt8)
    (hnc : Ics23.NoCollision f ((Spec.treeStrings (.ofDigest f) es).map Spec.Preimage.bytes ++
      (n.left.toList ++ n.right.toList).flatMap (Ics23.strings f)))
    (hv : Ics23.verifyNonMembership f (.nonexist n) ics23Spec (Spec.root (.ofDigest f) es).val key = .ok ()) :
    s (f key) = none := by
  have hm := nodupE_of_lists hl
  have hkc : ∀ d : List UInt8, Ics23.keyForComparison f ics23Spec d = .ok (f d).val := fun d => rfl
  have hts : ts (.ofDigest f) es [] = Spec.treeStrings (.ofDigest f) es := by
    unfold ts; simp [Spec.treeStrings]
  have hnp : ∀ p ∈ ts (.ofDigest f) es [], p.hash (.ofDigest f) ≠ placeholder := by
    intro p hp
    rw [preimage_hash_ofDigest]
    rw [hts] at hp
    exact hnc.notPlaceholder _ (List.mem_append_left _ (List.mem_map_of_mem hp))
  have hex : ∀ e, (n.left = some e ∨ n.right = some e) →
      Ics23.verifyExistence f e ics23Spec (Spec.root (.ofDigest f) es).val e.key e.value = .ok () →
      (f e.key, f e.value) ∈ es ∧ e.path = (hops (.ofDigest f) es [] (keyBits (f e.key))).reverse.map iop := by
    intro e he h
    rw [root_eq_sh] at h
    have key := ics_sound hm h (hnc.sub (by
      rw [hts]
      intro a ha
      rcases List.mem_append.1 ha with ha | ha
      · exact List.mem_append_left _ ha
      · refine List.mem_append_right _ (List.mem_flatMap.2 ⟨e, ?_, ha⟩)
        rcases he with he | he <;> simp [he]))
    exact ⟨key.1, key.2.1⟩
  cases hs : s (f key) with
  | none => rfl
  | some x =>
    exfalso
    have hmem : (f key, f x) ∈ es := (hl.mem _ _).2 ⟨x, hs, (ofDigest_hash f x).symm⟩
    have hv : Ics23.verifyNonExistence f n ics23Spec (Spec.root (.ofDigest f) es).val key = .ok () := hv
    unfold Ics23.verifyNonExistence at hv
    rw [bind_unit_ok, bind_unit_ok] at hv
    obtain ⟨v1, v2, v3⟩ := hv
    have hleft : ∀ e, n.left = some e → (f e.key).val < (f key).val ∧ (f e.key, f e.value) ∈ es ∧
        e.path = (hops (.ofDigest f) es [] (keyBits (f e.key))).reverse.map iop := by
      intro e he
      rw [he] at v1
      unfold Ics23.checkLeft at v1
      simp only [hkc, ok_bind] at v1
      rw [bind_unit_ok, ensure_ok, decide_eq_true_eq] at v1
      exact ⟨v1.2, hex e (.inl he) v1.1⟩
    have hright : ∀ e, n.right = some e → (f key).val < (f e.key).val ∧ (f e.key, f e.value) ∈ es ∧
        e.path = (hops (.ofDigest f) es [] (keyBits (f e.key))).reverse.map iop := by
      intro e he
      rw [he] at v2
      unfold Ics23.checkRight at v2
      simp only [hkc, ok_bind] at v2
      rw [bind_unit_ok, ensure_ok, decide_eq_true_eq] at v2
      exact ⟨v2.2, hex e (.inr he) v2.1⟩
    have hub : (f key, f x) ∈ ub [] es := by simpa using hmem
    cases hL : n.left with
    | none => cases hR : n.right with
      | none => rw [hL, hR] at v3; cases v3
      | some r =>
        obtain ⟨r1, r2, r3⟩ := hright r hR
        rw [hL, hR] at v3
        simp only at v3
        rw [r3, ensureLeftMost_iff] at v3
        have := (most_iff (H := .ofDigest f) hm false r2 (keyBits (f r.key)) [] rfl).1 hnp
          (fun p hp => v3 p (List.mem_reverse.2 hp)) _ hub
        exact this r1
    | some l =>
      obtain ⟨l1, l2, l3⟩ := hleft l hL
      cases hR : n.right with
      | none =>
        rw [hL, hR] at v3
        simp only at v3
        rw [l3, ensureRightMost_iff] at v3
        have := (most_iff (H := .ofDigest f) hm true l2 (keyBits (f l.key)) [] rfl).1 hnp
          (fun p hp => v3 p (List.mem_reverse.2 hp)) _ hub
        exact this l1
      | some r =>
        obtain ⟨r1, r2, r3⟩ := hright r hR
        rw [hL, hR] at v3
        simp only at v3
        rw [l3, r3, ensureLeftNeighbor_iff] at v3
        have hne : f l.key ≠ f r.key := by
          intro hc
          rw [hc] at l1
          exact List.lt_asymm l1 r1
        exact ((adjacent_iff (H := .ofDigest f) hm l2 r2 hne (keyBits (f l.key)) (keyBits (f r.key)) [] rfl rfl).1 hnp v3).2
          _ hub ⟨l1, r1⟩

/-! ### The mock store's preimages -/

/-- `put_key_preimage` for several keys (src/mock.rs:169-174). -/
def Store.putKeyPreimages (f : List UInt8 → Digest) (s : Store) (ps : List (List UInt8)) : Store :=
  ps.foldl (fun s p => s.putKeyPreimage (f p) p) s

/-- Registering the preimages of the keys changes nothing else and satisfies the hypothesis of `C28_absent`. -/
theorem C28_mock_preimages (s : Store) (ps : List (List UInt8)) :
    (s.putKeyPreimages f ps).reader = s.reader ∧
    ∀ mp : Spec.Map, (∀ k, mp k ≠ none → ∃ p ∈ ps, f p = k) →
      KnowsPreimages f mp (fun k => .ok ((s.putKeyPreimages f ps).preimage k)) := by
  have h1 : ∀ (ps : List (List UInt8)) (s : Store), (s.putKeyPreimages f ps).reader = s.reader := by
    intro ps
    induction ps with
    | nil => intro s; rfl
    | cons p ps ih => intro s; exact ih _
  have h2 : ∀ (ps : List (List UInt8)) (s : Store) (k : KeyHash),
      ((∃ p, s.preimage k = some p ∧ f p = k) ∨ ∃ p ∈ ps, f p = k) →
      ∃ p, (s.putKeyPreimages f ps).preimage k = some p ∧ f p = k := by
    intro ps
    induction ps with
    | nil =>
      rintro s k (h | ⟨p, hp, -⟩)
      · exact h
      · simp at hp
    | cons q ps ih =>
      intro s k h
      apply ih (s.putKeyPreimage (f q) q) k
      by_cases hq : f q = k
      · refine .inl ⟨q, ?_, hq⟩
        unfold Store.preimage Store.putKeyPreimage
        rw [AMap.get?_insert, if_pos hq]
      · rcases h with ⟨p, hp, hp'⟩ | ⟨p, hp, hp'⟩
        · refine .inl ⟨p, ?_, hp'⟩
          unfold Store.preimage Store.putKeyPreimage
          rw [AMap.get?_insert, if_neg hq]
          exact hp
        · rcases List.mem_cons.1 hp with rfl | hp
          · exact absurd hp' hq
          · exact .inr ⟨p, hp, hp'⟩
  refine ⟨h1 ps s, fun mp hmp k hk => ?_⟩
  obtain ⟨p, a, b⟩ := h2 ps s k (.inr (hmp k hk))
  exact ⟨p, congrArg Except.ok a, b⟩

/-! ### Boundaries and examples -/

namespace Sample

/-- Three keys, known by their preimages `[1]`, `[2]`, `[3]`; the last one has an empty value. -/
def opsI : List Op :=
  [.commit [[(toy [1], some [4])]], .commit [[(toy [2], some [3])]], .commit [[(toy [3], some [])]]]

/-- The verdict of the ics23 verifier on the answer of the store. -/
def icsCheck (f : List UInt8 → Digest) (s : Store) (ps : List (List UInt8)) (key : List UInt8) (v : Version) : Option Bool :=
  match getWithIcs23Proof (.ofDigest f) true s.reader (fun k => .ok ((s.putKeyPreimages f ps).preimage k)) key v,
      getRootHash (.ofDigest f) s.reader v with
  | .ok (some x, c), .ok root => some (Ics23.verifyMembership f c ics23Spec root.val key x).toBool
  | .ok (none, c), .ok root => some (Ics23.verifyNonMembership f c ics23Spec root.val key).toBool
  | _, _ => none

/-- Present and absent keys are accepted (version 1 has two keys). -/
example : check opsI (fun s => icsCheck toy s [[1], [2]] [1] 1 == some true && icsCheck toy s [[1], [2]] [2] 1 == some true &&
    icsCheck toy s [[1], [2]] [7] 1 == some true && icsCheck toy s [[1], [2]] [200] 1 == some true &&
    icsCheck toy s [[1], [2]] [9] 1 == some true) = true := by decide +kernel

/-- C28, boundary: an empty value is a legitimate value of the tree, but its ics23 proof is rejected. -/
theorem _root_.Jmt.C28_empty_value_rejected :
    check opsI (fun s => icsCheck toy s [[1], [2], [3]] [3] 2 == some false) = true := by decide +kernel

/-- A digest that keeps the first 32 bytes. -/
def pad (s : List UInt8) : Digest := ⟨(s ++ List.replicate 32 0).take 32, by simp⟩

/-- Two keys that agree on their first 71 bits. -/
def opsDeep : List Op :=
  [.commit [[(pad (List.replicate 8 0 ++ [2]), some [4])]], .commit [[(pad (List.replicate 8 0 ++ [3]), some [3])]]]

/-- C28, boundary: `ics23_spec` allows 64 inner operations, but the proofs of keys that agree on more than 64 bits are longer
and are rejected. -/
theorem _root_.Jmt.C28_deep_proof_rejected :
    (match Sys.run (.ofDigest pad) opsDeep ⟨Store.new false, 0⟩ with
      | .ok y => icsCheck pad y.store [] (List.replicate 8 0 ++ [2]) 0 == some true &&
          icsCheck pad y.store [] (List.replicate 8 0 ++ [2]) 1 == some false
      | .error _ => false) = true := by decide +kernel

theorem of_toBool {x : Except Err Unit} (h : x.toBool = true) : x = .ok () := by
  cases x with
  | error e => cases h
  | ok u => rfl

/-- The two-key tree over preimages `[1]` and `[2]`. -/
def esI : List Entry := [(toy [1], toy [4]), (toy [2], toy [3])]

/-- An accepted proof, and the hypothesis of C28_membership_sound. -/
example : ∃ e : Ics23.ExistenceProof,
    Ics23.NoCollision toy ((Spec.treeStrings T esI).map Spec.Preimage.bytes ++ Ics23.strings toy e) ∧
    Ics23.verifyMembership toy (.exist e) ics23Spec (Spec.root T esI).val [1] [4] = .ok () := by
  refine ⟨⟨[1], [4], some ics23LeafOp, ((hops T esI [] (keyBits (toy [1]))).map iop).reverse⟩, ⟨?_, ?_⟩, ?_⟩
  · decide +kernel
  · decide +kernel
  · exact of_toBool (by decide +kernel)

/-- An accepted non-existence proof, and the hypothesis of C28_nonmembership_sound: `[9]` lies between `[1]` and `[2]`. -/
example : ∃ n : Ics23.NonExistenceProof, n.left.isSome = true ∧ n.right.isSome = true ∧
    Ics23.NoCollision toy ((Spec.treeStrings T esI).map Spec.Preimage.bytes ++
      (n.left.toList ++ n.right.toList).flatMap (Ics23.strings toy)) ∧
    Ics23.verifyNonMembership toy (.nonexist n) ics23Spec (Spec.root T esI).val [9] = .ok () := by
  refine ⟨⟨[9], some ⟨[1], [4], some ics23LeafOp, ((hops T esI [] (keyBits (toy [1]))).map iop).reverse⟩,
    some ⟨[2], [3], some ics23LeafOp, ((hops T esI [] (keyBits (toy [2]))).map iop).reverse⟩⟩, rfl, rfl, ⟨?_, ?_⟩, ?_⟩
  · decide +kernel
  · decide +kernel
  · exact of_toBool (by decide +kernel)

end Sample
end Jmt
