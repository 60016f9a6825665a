import Verif.Props.Ics23
import Verif.Props.Exclusion
/-!
# C53 for ics23: the root of a map has at most one ics23 proof for each key

An ics23 path is not tied to the key it is for, so, unlike for the native proofs (Props/Unique), uniqueness needs that the root
is the root of a map.  The byte strings that must not collide are those hashed for the tree of the map and those hashed by the
verifier for the proofs in question.
-/
namespace Jmt
open Spec (Entry Lists)

variable {f : List UInt8 → Digest}

/-- The strings hashed for the tree of a map. -/
def Spec.treeBytes (f : List UInt8 → Digest) (es : List Entry) : List (List UInt8) :=
  (Spec.treeStrings (.ofDigest f) es).map Spec.Preimage.bytes

/-- The existence proofs in a non-existence proof. -/
def Ics23.NonExistenceProof.neighbours (n : Ics23.NonExistenceProof) : List Ics23.ExistenceProof := n.left.toList ++ n.right.toList

/-- The keys and values named by a non-existence proof. -/
def Ics23.NonExistenceProof.named (n : Ics23.NonExistenceProof) : List (List UInt8) :=
  n.neighbours.flatMap (fun e => [e.key, e.value])

theorem ics_exact {s : Spec.Map} {es} (hl : Lists (.ofDigest f) s es) {e : Ics23.ExistenceProof} {key value : List UInt8}
    (hv : Ics23.verifyExistence f e ics23Spec (Spec.root (.ofDigest f) es).val key value = .ok ())
    (hnc : Ics23.NoCollision f (Spec.treeBytes f es ++ Ics23.strings f e)) :
    (f key, f value) ∈ es ∧
      e = ⟨key, value, some ics23LeafOp, (hops (.ofDigest f) es [] (keyBits (f key))).reverse.map iop⟩ := by
  rw [root_eq_sh] at hv
  obtain ⟨h1, h2, h3, h4, h5⟩ := ics_sound (nodupE_of_lists hl) hv (by
    unfold ts; unfold Spec.treeBytes at hnc; simpa [Spec.treeStrings] using hnc)
  refine ⟨h1, ?_⟩
  obtain ⟨a, b, c, d⟩ := e
  simp only at h2 h3 h4 h5
  rw [h2, h3, h4, h5]

theorem hops_perm {H : Hasher} {m m' : List Entry} (h : m.Perm m') : ∀ (xs b : List Bool), hops H m b xs = hops H m' b xs := by
  intro xs
  induction xs with
  | nil => intro b; rfl
  | cons x xs ih =>
    intro b
    unfold hops
    rw [(show (ub b m).length = (ub b m').length from (h.filter _).length_eq), sh_perm H (h.filter _), ih]

/-- C53 for ics23 existence proofs: two proofs accepted for the same key against the root of a map differ at most in the value
they name, and the two values have the same hash. -/
theorem C53_ics23_membership_unique {s : Spec.Map} {es} (hl : Lists (.ofDigest f) s es) {e e' : Ics23.ExistenceProof}
    {key x x' : List UInt8}
    (hv : Ics23.verifyMembership f (.exist e) ics23Spec (Spec.root (.ofDigest f) es).val key x = .ok ())
    (hv' : Ics23.verifyMembership f (.exist e') ics23Spec (Spec.root (.ofDigest f) es).val key x' = .ok ())
    (hnc : Ics23.NoCollision f (Spec.treeBytes f es ++ Ics23.strings f e))
    (hnc' : Ics23.NoCollision f (Spec.treeBytes f es ++ Ics23.strings f e')) :
    f x = f x' ∧ e = { e' with value := x } := by
  obtain ⟨a1, a2⟩ := ics_exact hl hv hnc
  obtain ⟨b1, b2⟩ := ics_exact hl hv' hnc'
  obtain ⟨z, c1, c2⟩ := (hl.mem _ _).1 a1
  obtain ⟨z', d1, d2⟩ := (hl.mem _ _).1 b1
  rw [c1] at d1
  cases d1
  refine ⟨c2.trans d2.symm, ?_⟩
  rw [a2, b2]

/-- C53 for ics23 existence proofs: whatever proof for a key is accepted against the root hash of a readable version, it is the one
`get_with_ics23_proof` returns for that key and version (up to a different value of the same hash). -/
theorem C53_ics23_only_served_membership (checked : Bool) {ops : List Op} {y : Sys} (hr : Reached (.ofDigest f) ops y)
    (hb : (setsOf ops).length < 2 ^ 64) {v : Version} (hv : Readable ops v) {root : Digest}
    (hroot : getRootHash (.ofDigest f) y.store.reader v = .ok root) {e : Ics23.ExistenceProof} {key x : List UInt8}
    (hacc : Ics23.verifyMembership f (.exist e) ics23Spec root.val key x = .ok ())
    {es : List Entry} (hl : Lists (.ofDigest f) (mapAt ops v) es)
    (hnc : Ics23.NoCollision f (Spec.treeBytes f es ++ Ics23.strings f e))
    (pre : KeyHash → Except Err (Option (List UInt8))) :
    ∃ z, f z = f x ∧
      getWithIcs23Proof (.ofDigest f) checked y.store.reader pre key v = .ok (some z, .exist { e with value := z }) := by
  have hc := (C03_root_hash_canonical hr hb hv hl).1
  rw [hroot] at hc
  cases hc
  obtain ⟨a1, a2⟩ := ics_exact hl hacc hnc
  obtain ⟨z, c1, c2⟩ := (hl.mem _ _).1 a1
  have hfz : f x = f z := by rw [ofDigest_hash] at c2; exact c2
  refine ⟨z, hfz.symm, ?_⟩
  have ra := hr.readAt hb hv
  generalize entriesAfter (.ofDigest f) (setsOf ops) (v + 1) = m at ra
  obtain ⟨P, r, h1, h2, h3, h4⟩ := C27_present_key hr hb hv c1
  have hP : P = specProof (.ofDigest f) m (f key) := by
    have := ra.gwp (f key)
    rw [h2] at this
    injection this with this
    exact congrArg Prod.snd this
  unfold getWithIcs23Proof
  rw [ofDigest_hash, h1, ok_bind]
  simp only []
  rw [ics23Existence_eq _ _ _ _ (by rw [hP]; exact specProof_len _ _ _), ok_bind, a2,
    hops_perm (lists_perm hl ra.lists), hops_walk ra.nodup, hP]
  unfold specProof
  simp only [List.reverse_reverse, List.map_reverse, ofDigest_hash]

/-- C53 for ics23 non-existence proofs: an accepted proof names the true neighbours of the key, on each side exactly when there is
one, with values of the right hash. -/
theorem C53_ics23_nonmembership_neighbours {s : Spec.Map} {es} (hl : Lists (.ofDigest f) s es) {n : Ics23.NonExistenceProof}
    {key : List UInt8}
    (hv : Ics23.verifyNonMembership f (.nonexist n) ics23Spec (Spec.root (.ofDigest f) es).val key = .ok ())
    (hnc : Ics23.NoCollision f (Spec.treeBytes f es ++ n.neighbours.flatMap (Ics23.strings f))) :
    Spec.IsPredKey s (f key) (n.left.map (fun e => f e.key)) ∧
    Spec.IsSuccKey s (f key) (n.right.map (fun e => f e.key)) ∧
    ∀ e ∈ n.neighbours, ∃ x, s (f e.key) = some x ∧ f e.value = f x := by
  have hm := nodupE_of_lists hl
  have hkc : ∀ d : List UInt8, Ics23.keyForComparison f ics23Spec d = .ok (f d).val := fun d => rfl
  have habs : s (f key) = none := C28_nonmembership_sound hl n key hnc hv
  have hnp : ∀ p ∈ ts (.ofDigest f) es [], p.hash (.ofDigest f) ≠ placeholder := by
    intro p hp
    rw [preimage_hash_ofDigest]
    refine hnc.notPlaceholder _ (List.mem_append_left _ (List.mem_map_of_mem ?_))
    unfold ts at hp
    simpa [Spec.treeStrings] using hp
  have hex : ∀ e ∈ n.neighbours,
      Ics23.verifyExistence f e ics23Spec (Spec.root (.ofDigest f) es).val e.key e.value = .ok () →
      (f e.key, f e.value) ∈ es ∧ e.path = (hops (.ofDigest f) es [] (keyBits (f e.key))).reverse.map iop := by
    intro e he h
    obtain ⟨k1, k2⟩ := ics_exact hl h (hnc.sub (by
      intro a ha
      rcases List.mem_append.1 ha with ha | ha
      · exact List.mem_append_left _ ha
      · exact List.mem_append_right _ (List.mem_flatMap.2 ⟨e, he, ha⟩)))
    exact ⟨k1, congrArg Ics23.ExistenceProof.path k2⟩
  have hmem : ∀ k, s k ≠ none → ∃ e' ∈ ub [] es, e'.1 = k := by
    intro k hk
    obtain ⟨e', h1, h2⟩ := (hl.key k).2 hk
    exact ⟨e', by simpa using h1, h2⟩
  have hin : ∀ {k vh}, (k, vh) ∈ es → s k ≠ none := fun h => (hl.key _).1 ⟨_, h, rfl⟩
  have hv : Ics23.verifyNonExistence f n ics23Spec (Spec.root (.ofDigest f) es).val key = .ok () := hv
  unfold Ics23.verifyNonExistence at hv
  rw [bind_unit_ok, bind_unit_ok] at hv
  obtain ⟨v1, v2, v3⟩ := hv
  have hleft : ∀ e, n.left = some e → (f e.key).val < (f key).val ∧ (f e.key, f e.value) ∈ es ∧
      e.path = (hops (.ofDigest f) es [] (keyBits (f e.key))).reverse.map iop := by
    intro e he
    rw [he] at v1
    unfold Ics23.checkLeft at v1
    simp only [hkc, ok_bind] at v1
    rw [bind_unit_ok, ensure_ok, decide_eq_true_eq] at v1
    exact ⟨v1.2, hex e (by simp [Ics23.NonExistenceProof.neighbours, he]) v1.1⟩
  have hright : ∀ e, n.right = some e → (f key).val < (f e.key).val ∧ (f e.key, f e.value) ∈ es ∧
      e.path = (hops (.ofDigest f) es [] (keyBits (f e.key))).reverse.map iop := by
    intro e he
    rw [he] at v2
    unfold Ics23.checkRight at v2
    simp only [hkc, ok_bind] at v2
    rw [bind_unit_ok, ensure_ok, decide_eq_true_eq] at v2
    exact ⟨v2.2, hex e (by simp [Ics23.NonExistenceProof.neighbours, he]) v2.1⟩
  have hval : ∀ e ∈ n.neighbours, ∃ x, s (f e.key) = some x ∧ f e.value = f x := by
    intro e he
    have hin : (f e.key, f e.value) ∈ es := by
      rcases List.mem_append.1 he with he | he
      · exact (hleft e (by simpa using he)).2.1
      · exact (hright e (by simpa using he)).2.1
    obtain ⟨x, h1, h2⟩ := (hl.mem _ _).1 hin
    exact ⟨x, h1, by rw [ofDigest_hash] at h2; exact h2⟩
  suffices h : Spec.IsPredKey s (f key) (n.left.map (fun e => f e.key)) ∧
      Spec.IsSuccKey s (f key) (n.right.map (fun e => f e.key)) from ⟨h.1, h.2, hval⟩
  have hsplit : ∀ k, s k ≠ none → k.val < (f key).val ∨ (f key).val < k.val := by
    intro k hk
    rcases Std.lt_trichotomy k.val (f key).val with h | h | h
    · exact .inl h
    · exact absurd (by rw [Subtype.ext h]; exact habs) hk
    · exact .inr h
  cases hL : n.left with
  | none => cases hR : n.right with
    | none => rw [hL, hR] at v3; cases v3
    | some r =>
      obtain ⟨r1, r2, r3⟩ := hright r hR
      rw [hL, hR] at v3
      simp only at v3
      rw [r3, ensureLeftMost_iff] at v3
      have hmost := (most_iff (H := .ofDigest f) hm false r2 (keyBits (f r.key)) [] rfl).1 hnp
        (fun p hp => v3 p (List.mem_reverse.2 hp))
      refine ⟨?_, r1, hin r2, ?_⟩
      · intro k hk hlt
        obtain ⟨e', he', rfl⟩ := hmem k hk
        exact hmost e' he' (List.lt_trans hlt r1)
      · intro k hk hlt
        obtain ⟨e', he', rfl⟩ := hmem k hk
        exact List.not_lt.1 (hmost e' he')
  | some l =>
    obtain ⟨l1, l2, l3⟩ := hleft l hL
    cases hR : n.right with
    | none =>
      rw [hL, hR] at v3
      simp only at v3
      rw [l3, ensureRightMost_iff] at v3
      have hmost := (most_iff (H := .ofDigest f) hm true l2 (keyBits (f l.key)) [] rfl).1 hnp
        (fun p hp => v3 p (List.mem_reverse.2 hp))
      refine ⟨⟨l1, hin l2, ?_⟩, ?_⟩
      · intro k hk hlt
        obtain ⟨e', he', rfl⟩ := hmem k hk
        exact List.not_lt.1 (hmost e' he')
      · intro k hk hlt
        obtain ⟨e', he', rfl⟩ := hmem k hk
        exact hmost e' he' (List.lt_trans l1 hlt)
    | some r =>
      obtain ⟨r1, r2, r3⟩ := hright r hR
      rw [hL, hR] at v3
      simp only at v3
      rw [l3, r3, ensureLeftNeighbor_iff] at v3
      have hne : f l.key ≠ f r.key := by
        intro hc
        rw [hc] at l1
        exact List.lt_asymm l1 r1
      have hadj := ((adjacent_iff (H := .ofDigest f) hm l2 r2 hne (keyBits (f l.key)) (keyBits (f r.key)) [] rfl rfl).1 hnp v3).2
      refine ⟨⟨l1, hin l2, ?_⟩, r1, hin r2, ?_⟩
      · intro k hk hlt
        obtain ⟨e', he', rfl⟩ := hmem k hk
        exact List.not_lt.1 (fun hc => hadj e' he' ⟨hc, List.lt_trans hlt r1⟩)
      · intro k hk hlt
        obtain ⟨e', he', rfl⟩ := hmem k hk
        exact List.not_lt.1 (fun hc => hadj e' he' ⟨List.lt_trans l1 hlt, hc⟩)

/-- C53 for ics23 non-existence proofs: two proofs accepted for the same key against the root of a map have the same neighbours,
with the same paths, if no two of the keys and values they name collide. -/
theorem C53_ics23_nonmembership_unique {s : Spec.Map} {es} (hl : Lists (.ofDigest f) s es) {n n' : Ics23.NonExistenceProof}
    {key : List UInt8}
    (hv : Ics23.verifyNonMembership f (.nonexist n) ics23Spec (Spec.root (.ofDigest f) es).val key = .ok ())
    (hv' : Ics23.verifyNonMembership f (.nonexist n') ics23Spec (Spec.root (.ofDigest f) es).val key = .ok ())
    (hnc : Ics23.NoCollision f (Spec.treeBytes f es ++ n.neighbours.flatMap (Ics23.strings f)))
    (hnc' : Ics23.NoCollision f (Spec.treeBytes f es ++ n'.neighbours.flatMap (Ics23.strings f)))
    (hnamed : ∀ a ∈ n.named, ∀ b ∈ n'.named, f a = f b → a = b) :
    n.left = n'.left ∧ n.right = n'.right := by
  have exact1 : ∀ {n : Ics23.NonExistenceProof},
      Ics23.verifyNonMembership f (.nonexist n) ics23Spec (Spec.root (.ofDigest f) es).val key = .ok () →
      Ics23.NoCollision f (Spec.treeBytes f es ++ n.neighbours.flatMap (Ics23.strings f)) → ∀ e ∈ n.neighbours,
      e = ⟨e.key, e.value, some ics23LeafOp, (hops (.ofDigest f) es [] (keyBits (f e.key))).reverse.map iop⟩ := by
    intro n hv hnc e he
    have hv : Ics23.verifyNonExistence f n ics23Spec (Spec.root (.ofDigest f) es).val key = .ok () := hv
    unfold Ics23.verifyNonExistence at hv
    rw [bind_unit_ok, bind_unit_ok] at hv
    obtain ⟨v1, v2, -⟩ := hv
    have hacc : Ics23.verifyExistence f e ics23Spec (Spec.root (.ofDigest f) es).val e.key e.value = .ok () := by
      rcases List.mem_append.1 he with h | h
      · have h : n.left = some e := by simpa using h
        rw [h] at v1
        unfold Ics23.checkLeft at v1
        rw [bind_unit_ok] at v1
        exact v1.1
      · have h : n.right = some e := by simpa using h
        rw [h] at v2
        unfold Ics23.checkRight at v2
        rw [bind_unit_ok] at v2
        exact v2.1
    exact (ics_exact hl hacc (hnc.sub (by
      intro a ha
      rcases List.mem_append.1 ha with ha | ha
      · exact List.mem_append_left _ ha
      · exact List.mem_append_right _ (List.mem_flatMap.2 ⟨e, he, ha⟩)))).2
  obtain ⟨p1, p2, p3⟩ := C53_ics23_nonmembership_neighbours hl hv hnc
  obtain ⟨q1, q2, q3⟩ := C53_ics23_nonmembership_neighbours hl hv' hnc'
  have e1 := (C27_neighbours_unique s (f key)).1 p1 q1
  have e2 := (C27_neighbours_unique s (f key)).2 p2 q2
  have same : ∀ e ∈ n.neighbours, ∀ e' ∈ n'.neighbours, f e.key = f e'.key → e = e' := by
    intro e he e' he' h
    have hk : e.key = e'.key := hnamed _ (List.mem_flatMap.2 ⟨e, he, by simp⟩) _ (List.mem_flatMap.2 ⟨e', he', by simp⟩) h
    obtain ⟨x, a1, a2⟩ := p3 e he
    obtain ⟨x', b1, b2⟩ := q3 e' he'
    rw [h, b1] at a1
    cases a1
    have hx : e.value = e'.value :=
      hnamed _ (List.mem_flatMap.2 ⟨e, he, by simp⟩) _ (List.mem_flatMap.2 ⟨e', he', by simp⟩) (a2.trans b2.symm)
    rw [exact1 hv hnc e he, exact1 hv' hnc' e' he', hk, hx]
  constructor
  · cases h : n.left with
    | none => cases h' : n'.left with
      | none => rfl
      | some e' => rw [h, h'] at e1; cases e1
    | some e => cases h' : n'.left with
      | none => rw [h, h'] at e1; cases e1
      | some e' =>
        rw [h, h'] at e1
        injection e1 with e1
        rw [same e (by simp [Ics23.NonExistenceProof.neighbours, h]) e' (by simp [Ics23.NonExistenceProof.neighbours, h']) e1]
  · cases h : n.right with
    | none => cases h' : n'.right with
      | none => rfl
      | some e' => rw [h, h'] at e2; cases e2
    | some e => cases h' : n'.right with
      | none => rw [h, h'] at e2; cases e2
      | some e' =>
        rw [h, h'] at e2
        injection e2 with e2
        rw [same e (by simp [Ics23.NonExistenceProof.neighbours, h]) e' (by simp [Ics23.NonExistenceProof.neighbours, h']) e2]

/-! ### Examples -/

namespace Sample

/-- The map of `esI`. -/
def mapI : Spec.Map := fun k => if k = toy [1] then some [4] else if k = toy [2] then some [3] else none

theorem lists_esI : Lists (.ofDigest toy) mapI esI := by
  refine ⟨by decide +kernel, ?_⟩
  intro k vh
  have hne : toy [1] ≠ toy [2] := by decide +kernel
  have h4 : (Hasher.ofDigest toy).hash [4] = toy [4] := ofDigest_hash _ _
  have h3 : (Hasher.ofDigest toy).hash [3] = toy [3] := ofDigest_hash _ _
  unfold mapI esI
  by_cases h1 : k = toy [1]
  · subst h1
    simp [hne, h4]
  · by_cases h2 : k = toy [2]
    · subst h2
      simp [h1, h3]
    · simp [h1, h2]

/-- The proof of the key `[1]` of `esI`. -/
def proofI (k x : List UInt8) : Ics23.ExistenceProof :=
  ⟨k, x, some ics23LeafOp, ((hops (.ofDigest toy) esI [] (keyBits (toy k))).map iop).reverse⟩

/-- The hypotheses of `C53_ics23_membership_unique` are met: this proof is the only one. -/
example (e : Ics23.ExistenceProof)
    (hv : Ics23.verifyMembership toy (.exist e) ics23Spec (Spec.root (.ofDigest toy) esI).val [1] [4] = .ok ())
    (hnc : Ics23.NoCollision toy (Spec.treeBytes toy esI ++ Ics23.strings toy e)) : e = proofI [1] [4] :=
  (C53_ics23_membership_unique lists_esI hv (e' := proofI [1] [4]) (x' := [4]) (of_toBool (by decide +kernel)) hnc
    ⟨by decide +kernel, by decide +kernel⟩).2

/-- The hypotheses of the theorems about non-existence proofs are met, with both neighbours. -/
example : Spec.IsPredKey mapI (toy [9]) (some (toy [1])) ∧ Spec.IsSuccKey mapI (toy [9]) (some (toy [2])) := by
  obtain ⟨h1, h2, -⟩ := C53_ics23_nonmembership_neighbours lists_esI
    (n := ⟨[9], some (proofI [1] [4]), some (proofI [2] [3])⟩) (key := [9]) (of_toBool (by decide +kernel))
    ⟨by decide +kernel, by decide +kernel⟩
  exact ⟨h1, h2⟩

/-- Without a map behind the root there are two proofs for one key: an ics23 path is not tied to its key.  The root here is that of
two equal children. -/
theorem _root_.Jmt.C53_ics23_needs_map :
    ∃ (root : Digest) (e e' : Ics23.ExistenceProof), e ≠ e' ∧
      Ics23.verifyMembership toy (.exist e) ics23Spec root.val [1] [4] = .ok () ∧
      Ics23.verifyMembership toy (.exist e') ics23Spec root.val [1] [4] = .ok () ∧
      Ics23.NoCollision toy (Ics23.strings toy e ++ Ics23.strings toy e') := by
  refine ⟨toy (internalSep ++ (toy (leafSep ++ (toy [1]).val ++ (toy [4]).val)).val ++
      (toy (leafSep ++ (toy [1]).val ++ (toy [4]).val)).val),
    ⟨[1], [4], some ics23LeafOp, [iop (false, toy (leafSep ++ (toy [1]).val ++ (toy [4]).val))]⟩,
    ⟨[1], [4], some ics23LeafOp, [iop (true, toy (leafSep ++ (toy [1]).val ++ (toy [4]).val))]⟩, ?_, ?_, ?_, ?_, ?_⟩
  · decide +kernel
  · exact of_toBool (by decide +kernel)
  · exact of_toBool (by decide +kernel)
  · decide +kernel
  · decide +kernel

end Sample

end Jmt
