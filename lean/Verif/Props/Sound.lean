import Verif.Props.Core
/-!
# Properties C06, C07, C08: proofs and root hashes bind

The map `s` is arbitrary (finite: listed by `es`); the proof `P` is arbitrary, e.g. supplied by an
adversary.  `Spec.NoCollision` only speaks about the finitely many strings that are hashed in building the tree
and in checking the proof.
-/
namespace Jmt
open Spec (Lists)

variable {H : Hasher}

theorem nodupE_of_lists {s : Spec.Map} {es} (h : Lists H s es) : NodupE es := h.nodup

/-- C06: an accepted existence proof for `k`, `x` against the root of a map means that the map has a value with
the same hash at `k`. -/
theorem C06_existence_sound {s : Spec.Map} {es} (hl : Lists H s es) (P : SMProof) (k : KeyHash) (x : Value)
    (hnc : Spec.NoCollision H (Spec.treeStrings H es ++ Spec.proofStrings H P k))
    (hv : P.verifyExistence H (Spec.root H es) k x = .ok ()) :
    ∃ y, s k = some y ∧ H.hash x = H.hash y := by
  rw [root_eq_sh] at hv
  exact (hl.mem _ _).1 (verifyExistence_sound (nodupE_of_lists hl) hv hnc)

/-- C06 for byte strings and an actual digest: then the map has exactly the value `x`. -/
theorem C06_existence_sound_bytes (f : List UInt8 → Digest) {s : Spec.Map} {es}
    (hl : Lists (.ofDigest f) s es) (P : SMProof) (k : KeyHash) (x : Value)
    (hnc : Spec.NoDigestCollision f
      (Spec.treeStrings (.ofDigest f) es ++ Spec.proofStrings (.ofDigest f) P k) (x :: (s k).toList))
    (hv : P.verifyExistence (.ofDigest f) (Spec.root (.ofDigest f) es) k x = .ok ()) :
    s k = some x := by
  obtain ⟨y, h1, h2⟩ := C06_existence_sound hl P k x
    ⟨fun a ha b hb hab => preimage_bytes_inj (hnc.inj _ (List.mem_append_left _ (List.mem_map_of_mem ha))
        _ (List.mem_append_left _ (List.mem_map_of_mem hb)) (by rwa [preimage_hash_ofDigest, preimage_hash_ofDigest] at hab)),
      fun a ha => by rw [preimage_hash_ofDigest]; exact hnc.notPlaceholder a ha⟩ hv
  have hf : ∀ v, (Hasher.ofDigest f).hash v = f v := fun v => by simp [Hasher.hash, Hasher.ofDigest]
  rw [hf, hf] at h2
  have := hnc.inj x (by simp) y (by simp [h1]) h2
  rw [h1, this]

/-- C06 over a history: a proof accepted against the root hash of a readable version. -/
theorem C06_existence_sound_history {ops : List Op} {y : Sys} (hr : Reached H ops y)
    (hb : (setsOf ops).length < 2 ^ 64) {v : Version} (hv : Readable ops v) {es}
    (hl : Lists H (mapAt ops v) es) {root : Digest} (hroot : getRootHash H y.store.reader v = .ok root)
    (P : SMProof) (k : KeyHash) (x : Value)
    (hnc : Spec.NoCollision H (Spec.treeStrings H es ++ Spec.proofStrings H P k))
    (hinj : ∀ z, mapAt ops v k = some z → H.hash x = H.hash z → x = z)
    (hok : P.verifyExistence H root k x = .ok ()) :
    get y.store.reader k v = .ok (some x) := by
  rw [(C03_root_hash_canonical hr hb hv hl).1] at hroot
  cases hroot
  obtain ⟨z, h1, h2⟩ := C06_existence_sound hl P k x hnc hok
  rw [C01_get_is_versioned_map hr hb, h1, hinj z h1 h2]

/-- C07: an accepted non-existence proof means that the key is absent. -/
theorem C07_nonexistence_sound {s : Spec.Map} {es} (hl : Lists H s es) (P : SMProof) (k : KeyHash)
    (hnc : Spec.NoCollision H (Spec.treeStrings H es ++ Spec.proofStrings H P k))
    (hv : P.verifyNonexistence H (Spec.root H es) k = .ok ()) : s k = none := by
  rw [root_eq_sh] at hv
  cases hs : s k with
  | none => rfl
  | some x => exact absurd ((hl.mem k (H.hash x)).2 ⟨x, hs, rfl⟩) (verifyNonexistence_sound (nodupE_of_lists hl) hv hnc _)

/-- C07 over a history. -/
theorem C07_nonexistence_sound_history {ops : List Op} {y : Sys} (hr : Reached H ops y)
    (hb : (setsOf ops).length < 2 ^ 64) {v : Version} (hv : Readable ops v) {es}
    (hl : Lists H (mapAt ops v) es) {root : Digest} (hroot : getRootHash H y.store.reader v = .ok root)
    (P : SMProof) (k : KeyHash)
    (hnc : Spec.NoCollision H (Spec.treeStrings H es ++ Spec.proofStrings H P k))
    (hok : P.verifyNonexistence H root k = .ok ()) :
    get y.store.reader k v = .ok none := by
  rw [(C03_root_hash_canonical hr hb hv hl).1] at hroot
  cases hroot
  rw [C01_get_is_versioned_map hr hb, C07_nonexistence_sound hl P k hnc hok]

/-- C06 and C07 together: no root has both an existence and a non-existence proof for the same key. -/
theorem C07_no_contradictory_proofs {s : Spec.Map} {es} (hl : Lists H s es) (P Q : SMProof) (k : KeyHash) (x : Value)
    (hp : Spec.NoCollision H (Spec.treeStrings H es ++ Spec.proofStrings H P k))
    (hq : Spec.NoCollision H (Spec.treeStrings H es ++ Spec.proofStrings H Q k)) :
    ¬ (P.verifyExistence H (Spec.root H es) k x = .ok () ∧ Q.verifyNonexistence H (Spec.root H es) k = .ok ()) := by
  rintro ⟨h1, h2⟩
  obtain ⟨y, hy, -⟩ := C06_existence_sound hl P k x hp h1
  rw [C07_nonexistence_sound hl Q k hq h2] at hy
  cases hy

/-- C08: maps with equal root hashes have the same keys with the same value hashes. -/
theorem C08_root_binds_map {s s' : Spec.Map} {es es'} (hl : Lists H s es) (hl' : Lists H s' es')
    (hnc : Spec.NoCollision H (Spec.treeStrings H es ++ Spec.treeStrings H es'))
    (h : Spec.root H es = Spec.root H es') : ∀ k, (s k).map H.hash = (s' k).map H.hash := by
  have hp := root_binds (nodupE_of_lists hl) (nodupE_of_lists hl') (by rw [← root_eq_sh, ← root_eq_sh]; exact h) hnc
  have hx : ∀ {t : Spec.Map} {l}, Lists H t l → ∀ k vh, (t k).map H.hash = some vh ↔ (k, vh) ∈ l := by
    intro t l hl k vh
    rw [hl.mem, Option.map_eq_some_iff]
    simp only [eq_comm]
  intro k
  apply Option.ext
  intro vh
  rw [hx hl, hx hl', hp.mem_iff]

/-- C08 for byte strings: the maps are equal. -/
theorem C08_root_binds_map_bytes (f : List UInt8 → Digest) {s s' : Spec.Map} {es es'}
    (hl : Lists (.ofDigest f) s es) (hl' : Lists (.ofDigest f) s' es')
    (hnc : Spec.NoDigestCollision f
      (Spec.treeStrings (.ofDigest f) es ++ Spec.treeStrings (.ofDigest f) es') [])
    (hval : ∀ k a b, s k = some a → s' k = some b → f a = f b → a = b)
    (h : Spec.root (.ofDigest f) es = Spec.root (.ofDigest f) es') : s = s' := by
  have := C08_root_binds_map hl hl'
    ⟨fun a ha b hb hab => preimage_bytes_inj (hnc.inj _ (List.mem_append_left _ (List.mem_map_of_mem ha))
        _ (List.mem_append_left _ (List.mem_map_of_mem hb)) (by rwa [preimage_hash_ofDigest, preimage_hash_ofDigest] at hab)),
      fun a ha => by rw [preimage_hash_ofDigest]; exact hnc.notPlaceholder a ha⟩ h
  have hf : ∀ v, (Hasher.ofDigest f).hash v = f v := fun v => by simp [Hasher.hash, Hasher.ofDigest]
  funext k
  have hk := this k
  cases h1 : s k with
  | none => cases h2 : s' k with
    | none => rfl
    | some b => rw [h1, h2] at hk; simp at hk
  | some a => cases h2 : s' k with
    | none => rw [h1, h2] at hk; simp at hk
    | some b =>
      rw [h1, h2] at hk
      simp only [Option.map_some, Option.some.injEq, hf] at hk
      rw [hval k a b h1 h2 hk]

/-! ### A concrete digest, map and proof meeting the hypotheses -/

namespace Sample

/-- A toy digest (not secure): the byte string read in base 257, shifted, in 32 bytes. -/
def toy (s : List UInt8) : Digest :=
  let n := (s.foldl (fun a b => a * 257 + b.toNat + 1) 7) * 1000003 + s.length
  ⟨(List.range 32).map (fun i => UInt8.ofNat (n / 256 ^ i)), by simp⟩

abbrev T : Hasher := .ofDigest toy

/-- Two keys. -/
def s2 : Spec.Map := (Spec.Map.empty.write (key 0x10, some [4])).write (key 0x80, some [3])

def es2 : List Spec.Entry := [(key 0x10, toy [4]), (key 0x80, toy [3])]

theorem lists2 : Lists T s2 es2 := by
  refine ⟨by show [key 0x10, key 0x80].Nodup; decide, fun k vh => ?_⟩
  unfold s2 es2 Spec.Map.write
  have e2 : key 0x10 ≠ key 0x80 := by decide
  have hf : ∀ v, T.hash v = toy v := fun v => by simp [T, Hasher.hash, Hasher.ofDigest]
  by_cases h1 : k = key 0x10
  · subst h1; simp [e2, hf]
  · by_cases h2 : k = key 0x80
    · subst h2; simp [e2.symm, hf]
    · simp [h1, h2, Spec.Map.empty]

def proof10 : SMProof := ⟨some (key 0x10, toy [4]), [.leaf (key 0x80) (toy [3])]⟩

theorem nc2 : Spec.NoCollision T (Spec.treeStrings T es2 ++ Spec.proofStrings T proof10 (key 0x10)) := by
  constructor
  · decide +kernel
  · decide +kernel

theorem nc2' : Spec.NoCollision T (Spec.treeStrings T es2 ++ Spec.proofStrings T proof10 (key 0x1f)) := by
  constructor
  · decide +kernel
  · decide +kernel

theorem accepted : proof10.verifyExistence T (Spec.root T es2) (key 0x10) [4] = .ok () := by
  refine verify_iff.2 ⟨by decide, by rfl, by decide +kernel⟩

theorem accepted' : proof10.verifyNonexistence T (Spec.root T es2) (key 0x1f) = .ok () := by
  refine verify_iff.2 ⟨by decide, ?_, by decide +kernel⟩
  show (if key 0x1f = key 0x10 then
      Except.error (Err.bail "Expected non-inclusion proof, but key exists in proof.") else
    if Bytes32.commonPrefixBitsLen (key 0x1f) (key 0x10) < 1 then Except.error (Err.bail "Key would not have ended up in the subtree") else Except.ok ()) = Except.ok ()
  rw [if_neg (by decide), if_neg (by decide +kernel)]

end Sample

example : ∃ y, Sample.s2 (Sample.key 0x10) = some y ∧ Sample.T.hash [4] = Sample.T.hash y :=
  C06_existence_sound Sample.lists2 Sample.proof10 _ _ Sample.nc2 Sample.accepted

example : Sample.s2 (Sample.key 0x10) = some [4] :=
  C06_existence_sound_bytes Sample.toy Sample.lists2 Sample.proof10 _ _
    ⟨by decide +kernel, by decide +kernel⟩ Sample.accepted

example : Sample.s2 (Sample.key 0x1f) = none :=
  C07_nonexistence_sound Sample.lists2 Sample.proof10 _ Sample.nc2' Sample.accepted'

example : ∀ k, (Sample.s2 k).map Sample.T.hash = (Sample.s2 k).map Sample.T.hash :=
  C08_root_binds_map Sample.lists2 (es' := Sample.es2.reverse)
    ⟨by decide, fun k vh => by rw [List.mem_reverse]; exact Sample.lists2.mem k vh⟩
    ⟨by decide +kernel, by decide +kernel⟩ (by decide +kernel)

end Jmt
