import Verif.Proofs.UserMap
import Verif.Props.Sound
import Verif.Props.Ics23
import Verif.Props.Iterate
/-!
# C61: the map an application sees

The keys of an application are byte strings, hashed by `KeyHash::with`.  `Spec/UserMap` defines the application's map without
hashes; here every call answers about that map, as long as no two of the byte strings involved have the same digest.
-/
namespace Jmt
open Spec (Entry Lists userMapAt userKeys Distinct)

variable {f : List UInt8 → Digest} {us us' : List UserOp} {y y' : Sys}

/-- C61: reading a key gives the application's last write to it. -/
theorem C61_get (hr : Reached (.ofDigest f) (us.map (UserOp.hashed f)) y) (hb : (Spec.userSets us).length < 2 ^ 64)
    {key : List UInt8} (hd : Distinct f (key :: userKeys us)) (v : Version) :
    get y.store.reader (f key) v = .ok (userMapAt us v key) := by
  rw [C01_get_is_versioned_map hr (by rw [setsOf_hashed, List.length_map]; exact hb), mapAt_user hd]

/-- C61: reading with a proof gives the same value, and the proof convinces a client holding the root hash. -/
theorem C61_get_with_proof (hr : Reached (.ofDigest f) (us.map (UserOp.hashed f)) y) (hb : (Spec.userSets us).length < 2 ^ 64)
    {v : Version} (hv : Readable (us.map (UserOp.hashed f)) v) {key : List UInt8} (hd : Distinct f (key :: userKeys us)) :
    ∃ P root, getWithProof (.ofDigest f) y.store.reader (f key) v = .ok (userMapAt us v key, P) ∧
      getRootHash (.ofDigest f) y.store.reader v = .ok root ∧
      (∀ x, userMapAt us v key = some x → P.verifyExistence (.ofDigest f) root (f key) x = .ok ()) ∧
      (userMapAt us v key = none → P.verifyNonexistence (.ofDigest f) root (f key) = .ok ()) := by
  have hb' : (setsOf (us.map (UserOp.hashed f))).length < 2 ^ 64 := by rw [setsOf_hashed, List.length_map]; exact hb
  have hm := mapAt_user hd v
  cases hx : userMapAt us v key with
  | none =>
    obtain ⟨P, r, h1, h2, h3⟩ := C05_nonexistence_complete hr hb' hv (hm.trans hx)
    exact ⟨P, r, h1, h2, fun x h => (by cases h), fun _ => h3⟩
  | some x =>
    obtain ⟨P, r, h1, h2, h3⟩ := C04_existence_complete hr hb' hv (hm.trans hx)
    exact ⟨P, r, h1, h2, fun x' h => (by cases h; exact h3), fun h => (by cases h)⟩

/-- C61: two applications, or the same one at two versions, that see the same map have the same root hash, whatever their
histories. -/
theorem C61_same_map_same_root (hr : Reached (.ofDigest f) (us.map (UserOp.hashed f)) y) (hb : (Spec.userSets us).length < 2 ^ 64)
    (hr' : Reached (.ofDigest f) (us'.map (UserOp.hashed f)) y') (hb' : (Spec.userSets us').length < 2 ^ 64)
    {v v' : Version} (hv : Readable (us.map (UserOp.hashed f)) v) (hv' : Readable (us'.map (UserOp.hashed f)) v')
    (hd : Distinct f (userKeys us ++ userKeys us')) (h : ∀ key, userMapAt us v key = userMapAt us' v' key) :
    ∃ root, getRootHash (.ofDigest f) y.store.reader v = .ok root ∧ getRootHash (.ofDigest f) y'.store.reader v' = .ok root := by
  have hb1 : (setsOf (us.map (UserOp.hashed f))).length < 2 ^ 64 := by rw [setsOf_hashed, List.length_map]; exact hb
  have hb2 : (setsOf (us'.map (UserOp.hashed f))).length < 2 ^ 64 := by rw [setsOf_hashed, List.length_map]; exact hb'
  have hkey : ∀ k ∈ userKeys us ++ userKeys us',
      mapAt (us.map (UserOp.hashed f)) v (f k) = mapAt (us'.map (UserOp.hashed f)) v' (f k) := by
    intro k hk
    rw [mapAt_user (hd.cons_sub hk fun _ => List.mem_append_left _), mapAt_user (hd.cons_sub hk fun _ => List.mem_append_right _), h]
  have heq : mapAt (us.map (UserOp.hashed f)) v = mapAt (us'.map (UserOp.hashed f)) v' := by
    funext K
    by_cases hK : ∃ k ∈ userKeys us ++ userKeys us', f k = K
    · obtain ⟨k, hk, rfl⟩ := hK
      exact hkey k hk
    · have h1 : mapAt (us.map (UserOp.hashed f)) v K = none := Classical.byContradiction fun hc => by
        obtain ⟨k, h1, h2⟩ := mapAt_hashed_key hc
        exact hK ⟨k, List.mem_append_left _ h1, h2⟩
      have h2 : mapAt (us'.map (UserOp.hashed f)) v' K = none := Classical.byContradiction fun hc => by
        obtain ⟨k, h1, h2⟩ := mapAt_hashed_key hc
        exact hK ⟨k, List.mem_append_right _ h1, h2⟩
      rw [h1, h2]
  have hl := (hr.readAt hb1 hv).lists
  exact ⟨_, (C03_root_hash_canonical hr hb1 hv hl).1, (C03_root_hash_canonical hr' hb2 hv' (heq ▸ hl)).1⟩

/-- C61: the root hash commits to the application's map: equal root hashes mean equal maps. -/
theorem C61_same_root_same_map (hr : Reached (.ofDigest f) (us.map (UserOp.hashed f)) y) (hb : (Spec.userSets us).length < 2 ^ 64)
    (hr' : Reached (.ofDigest f) (us'.map (UserOp.hashed f)) y') (hb' : (Spec.userSets us').length < 2 ^ 64)
    {v v' : Version} (hv : Readable (us.map (UserOp.hashed f)) v) (hv' : Readable (us'.map (UserOp.hashed f)) v')
    (hd : Distinct f (userKeys us ++ userKeys us')) {es es' : List Entry}
    (hl : Lists (.ofDigest f) (mapAt (us.map (UserOp.hashed f)) v) es)
    (hl' : Lists (.ofDigest f) (mapAt (us'.map (UserOp.hashed f)) v') es')
    (hnc : Spec.NoDigestCollision f (Spec.treeStrings (.ofDigest f) es ++ Spec.treeStrings (.ofDigest f) es') [])
    (hval : ∀ key a b, userMapAt us v key = some a → userMapAt us' v' key = some b → f a = f b → a = b)
    (h : getRootHash (.ofDigest f) y.store.reader v = getRootHash (.ofDigest f) y'.store.reader v') :
    ∀ key, userMapAt us v key = userMapAt us' v' key := by
  have hb1 : (setsOf (us.map (UserOp.hashed f))).length < 2 ^ 64 := by rw [setsOf_hashed, List.length_map]; exact hb
  have hb2 : (setsOf (us'.map (UserOp.hashed f))).length < 2 ^ 64 := by rw [setsOf_hashed, List.length_map]; exact hb'
  rw [(C03_root_hash_canonical hr hb1 hv hl).1, (C03_root_hash_canonical hr' hb2 hv' hl').1] at h
  have hsub : ∀ k ∈ userKeys us ++ userKeys us', Distinct f (k :: userKeys us) ∧ Distinct f (k :: userKeys us') := by
    exact fun k hk => ⟨hd.cons_sub hk fun _ => List.mem_append_left _, hd.cons_sub hk fun _ => List.mem_append_right _⟩
  have heq := C08_root_binds_map_bytes f hl hl' hnc (by
    intro K a b ha hb hab
    obtain ⟨k, hk, rfl⟩ := mapAt_hashed_key (by rw [ha]; exact Option.some_ne_none a)
    obtain ⟨d1, d2⟩ := hsub k (List.mem_append_left _ hk)
    exact hval k a b ((mapAt_user d1 v).symm.trans ha) ((mapAt_user d2 v').symm.trans hb) hab) (Except.ok.inj h)
  intro key
  by_cases hk : key ∈ userKeys us ++ userKeys us'
  · obtain ⟨d1, d2⟩ := hsub key hk
    rw [← mapAt_user d1, ← mapAt_user d2, heq]
  · rw [userMapAt_none (fun hc => hk (List.mem_append_left _ hc)), userMapAt_none (fun hc => hk (List.mem_append_right _ hc))]

/-- C61: an accepted existence proof means the application stored exactly that value under exactly that key. -/
theorem C61_existence_sound (hr : Reached (.ofDigest f) (us.map (UserOp.hashed f)) y) (hb : (Spec.userSets us).length < 2 ^ 64)
    {v : Version} (hv : Readable (us.map (UserOp.hashed f)) v) {key : List UInt8} (hd : Distinct f (key :: userKeys us))
    {es : List Entry} (hl : Lists (.ofDigest f) (mapAt (us.map (UserOp.hashed f)) v) es) {root : Digest}
    (hroot : getRootHash (.ofDigest f) y.store.reader v = .ok root) (P : SMProof) (x : Value)
    (hnc : Spec.NoDigestCollision f (Spec.treeStrings (.ofDigest f) es ++ Spec.proofStrings (.ofDigest f) P (f key))
      (x :: (userMapAt us v key).toList))
    (hok : P.verifyExistence (.ofDigest f) root (f key) x = .ok ()) : userMapAt us v key = some x := by
  have hb1 : (setsOf (us.map (UserOp.hashed f))).length < 2 ^ 64 := by rw [setsOf_hashed, List.length_map]; exact hb
  rw [(C03_root_hash_canonical hr hb1 hv hl).1] at hroot
  cases hroot
  rw [← mapAt_user hd] at hnc ⊢
  exact C06_existence_sound_bytes f hl P (f key) x hnc hok

/-- C61: an accepted non-existence proof means the application's map lacks the key. -/
theorem C61_nonexistence_sound (hr : Reached (.ofDigest f) (us.map (UserOp.hashed f)) y)
    (hb : (Spec.userSets us).length < 2 ^ 64) {v : Version} (hv : Readable (us.map (UserOp.hashed f)) v) {key : List UInt8}
    (hd : Distinct f (key :: userKeys us)) {es : List Entry}
    (hl : Lists (.ofDigest f) (mapAt (us.map (UserOp.hashed f)) v) es) {root : Digest}
    (hroot : getRootHash (.ofDigest f) y.store.reader v = .ok root) (P : SMProof)
    (hnc : Spec.NoDigestCollision f (Spec.treeStrings (.ofDigest f) es ++ Spec.proofStrings (.ofDigest f) P (f key)) [])
    (hok : P.verifyNonexistence (.ofDigest f) root (f key) = .ok ()) : userMapAt us v key = none := by
  have hb1 : (setsOf (us.map (UserOp.hashed f))).length < 2 ^ 64 := by rw [setsOf_hashed, List.length_map]; exact hb
  rw [(C03_root_hash_canonical hr hb1 hv hl).1] at hroot
  cases hroot
  rw [← mapAt_user hd]
  refine C07_nonexistence_sound hl P (f key) ⟨fun a ha b hb hab => preimage_bytes_inj
    (hnc.inj _ (List.mem_append_left _ (List.mem_map_of_mem ha)) _ (List.mem_append_left _ (List.mem_map_of_mem hb))
      (by rwa [preimage_hash_ofDigest, preimage_hash_ofDigest] at hab)),
      fun a ha => by rw [preimage_hash_ofDigest]; exact hnc.notPlaceholder a ha⟩ hok

/-- C61: iterating a version from its smallest key hash yields the pairs of the application's map, each once, under the hash of its key. -/
theorem C61_iterator (hr : Reached (.ofDigest f) (us.map (UserOp.hashed f)) y) (hb : (Spec.userSets us).length < 2 ^ 64)
    {v : Version} (hv : Readable (us.map (UserOp.hashed f)) v) (hd : Distinct f (userKeys us)) (start : KeyHash) :
    ∃ it items, Iter.new y.store.reader v start = .ok it ∧ it.Yields y.store.reader items ∧
      items.Pairwise (fun a b => a.1.val < b.1.val) ∧
      ∀ K x, (K, x) ∈ items ↔ ∃ key, f key = K ∧ key ∈ userKeys us ∧ userMapAt us v key = some x ∧ start.val ≤ K.val := by
  have hb1 : (setsOf (us.map (UserOp.hashed f))).length < 2 ^ 64 := by rw [setsOf_hashed, List.length_map]; exact hb
  obtain ⟨it, items, h1, h2, h3, h4⟩ := C20_iterator hr hb1 hv start
  have hsub : ∀ k ∈ userKeys us, Distinct f (k :: userKeys us) := by
    exact fun k hk => hd.cons_sub hk fun _ h => h
  refine ⟨it, items, h1, h2, h3, fun K x => ?_⟩
  rw [h4]
  constructor
  · rintro ⟨hx, hs⟩
    obtain ⟨k, hk, rfl⟩ := mapAt_hashed_key (by rw [hx]; exact Option.some_ne_none x)
    exact ⟨k, rfl, hk, (mapAt_user (hsub k hk) v).symm.trans hx, hs⟩
  · rintro ⟨k, rfl, hk, hx, hs⟩
    exact ⟨(mapAt_user (hsub k hk) v).trans hx, hs⟩

/-- C61: ics23 proofs speak about the application's keys and values.  With the preimages of its keys registered, asking for a
key that is present gives its value and a membership proof; asking for one that is absent from a non-empty map gives a
non-membership proof whose neighbours are keys of the application with their values.  The external verifier accepts them
against the root hash exactly within its own limits (non-empty keys and values, at most 64 inner operations). -/
theorem C61_ics23_complete (checked : Bool) (hr : Reached (.ofDigest f) (us.map (UserOp.hashed f)) y)
    (hb : (Spec.userSets us).length < 2 ^ 64) {v : Version} (hv : Readable (us.map (UserOp.hashed f)) v) {key : List UInt8}
    (hd : Distinct f (key :: userKeys us)) {st : Store} (hst : st = y.store.putKeyPreimages f (userKeys us)) :
    ∃ root, getRootHash (.ofDigest f) st.reader v = .ok root ∧
      (∀ x, userMapAt us v key = some x →
        ∃ e, getWithIcs23Proof (.ofDigest f) checked st.reader (fun k => .ok (st.preimage k)) key v = .ok (some x, .exist e) ∧
          (Ics23.verifyMembership f (.exist e) ics23Spec root.val key x = .ok () ↔ key ≠ [] ∧ x ≠ [] ∧ e.path.length ≤ 64)) ∧
      (userMapAt us v key = none → (∃ key' x, userMapAt us v key' = some x) →
        ∃ n, getWithIcs23Proof (.ofDigest f) checked st.reader (fun k => .ok (st.preimage k)) key v = .ok (none, .nonexist n) ∧
          n.key = key ∧
          (Ics23.verifyNonMembership f (.nonexist n) ics23Spec root.val key = .ok () ↔
            ∀ e, n.left = some e ∨ n.right = some e → e.WithinLimits)) := by
  have hb1 : (setsOf (us.map (UserOp.hashed f))).length < 2 ^ 64 := by rw [setsOf_hashed, List.length_map]; exact hb
  obtain ⟨p1, p2⟩ := C28_mock_preimages (f := f) y.store (userKeys us)
  rw [← hst] at p1 p2
  have hpre := p2 _ (fun K hK => mapAt_hashed_key (f := f) (us := us) (v := v) hK)
  have hl := (hr.readAt hb1 hv).lists
  have hroot := (C03_root_hash_canonical hr hb1 hv hl).1
  refine ⟨_, by rw [p1]; exact hroot, fun x hx => ?_, fun hx hne => ?_⟩
  · obtain ⟨e, r, h1, h2, h3⟩ := C28_present checked hr hb1 hv ((mapAt_user hd v).trans hx) (fun k => .ok (st.preimage k))
    rw [hroot] at h2
    cases h2
    exact ⟨e, by rw [p1]; exact h1, h3⟩
  · obtain ⟨k', x, hk'⟩ := hne
    have hmem : k' ∈ userKeys us := Classical.byContradiction fun hc => by rw [userMapAt_none hc] at hk'; cases hk'
    obtain ⟨n, r, h1, h2, h3, -, -, -, h4⟩ := C28_absent checked hr hb1 hv ((mapAt_user hd v).trans hx)
      ⟨f k', x, (mapAt_user (hd.cons_sub (List.mem_cons_of_mem _ hmem) fun _ => List.mem_cons_of_mem _) v).trans hk'⟩ hpre
    rw [hroot] at h2
    cases h2
    exact ⟨n, by rw [p1]; exact h1, h3, h4⟩

/-- C61: a membership proof accepted by the external verifier means the application stored that value under that key. -/
theorem C61_ics23_membership_sound (hr : Reached (.ofDigest f) (us.map (UserOp.hashed f)) y)
    (hb : (Spec.userSets us).length < 2 ^ 64) {v : Version} (hv : Readable (us.map (UserOp.hashed f)) v) {key : List UInt8}
    (hd : Distinct f (key :: userKeys us)) {es : List Entry}
    (hl : Lists (.ofDigest f) (mapAt (us.map (UserOp.hashed f)) v) es) {root : Digest}
    (hroot : getRootHash (.ofDigest f) y.store.reader v = .ok root) (e : Ics23.ExistenceProof) (value : Value)
    (hnc : Ics23.NoCollision f ((Spec.treeStrings (.ofDigest f) es).map Spec.Preimage.bytes ++ Ics23.strings f e))
    (hval : ∀ x, userMapAt us v key = some x → f value = f x → value = x)
    (hok : Ics23.verifyMembership f (.exist e) ics23Spec root.val key value = .ok ()) : userMapAt us v key = some value := by
  have hb1 : (setsOf (us.map (UserOp.hashed f))).length < 2 ^ 64 := by rw [setsOf_hashed, List.length_map]; exact hb
  rw [(C03_root_hash_canonical hr hb1 hv hl).1] at hroot
  cases hroot
  obtain ⟨x, h1, h2⟩ := C28_membership_sound hl (.exist e) e rfl key value hnc hok
  rw [mapAt_user hd] at h1
  rw [hval x h1 h2]; exact h1

/-- C61: a non-membership proof accepted by the external verifier means the application's map lacks the key. -/
theorem C61_ics23_nonmembership_sound (hr : Reached (.ofDigest f) (us.map (UserOp.hashed f)) y)
    (hb : (Spec.userSets us).length < 2 ^ 64) {v : Version} (hv : Readable (us.map (UserOp.hashed f)) v) {key : List UInt8}
    (hd : Distinct f (key :: userKeys us)) {es : List Entry}
    (hl : Lists (.ofDigest f) (mapAt (us.map (UserOp.hashed f)) v) es) {root : Digest}
    (hroot : getRootHash (.ofDigest f) y.store.reader v = .ok root) (n : Ics23.NonExistenceProof)
    (hnc : Ics23.NoCollision f ((Spec.treeStrings (.ofDigest f) es).map Spec.Preimage.bytes ++
      (n.left.toList ++ n.right.toList).flatMap (Ics23.strings f)))
    (hok : Ics23.verifyNonMembership f (.nonexist n) ics23Spec root.val key = .ok ()) : userMapAt us v key = none := by
  have hb1 : (setsOf (us.map (UserOp.hashed f))).length < 2 ^ 64 := by rw [setsOf_hashed, List.length_map]; exact hb
  rw [(C03_root_hash_canonical hr hb1 hv hl).1] at hroot
  cases hroot
  rw [← mapAt_user hd]
  exact C28_nonmembership_sound hl n key hnc hok

namespace Sample

/-- Three versions: "a" and "b" are written, then "a" is deleted and "b" overwritten, then "a" comes back through the batch API. -/
def userOps : List UserOp :=
  [.commit [[([97], some [1]), ([98], some [2])], [([97], none), ([98], some [3])]], .purge 0, .batch [[([97], [9])]]]

theorem userDistinct : Distinct toy ([99] :: userKeys userOps) := by
  unfold Distinct
  decide +kernel

theorem user_reached : ∃ y, Reached T (userOps.map (UserOp.hashed toy)) y :=
  C13_history_never_fails T _ (by decide) (by decide)

end Sample

/-- C61 on a concrete history: the deleted key, the overwritten key, and a key never written. -/
example : ∃ y, Reached Sample.T (Sample.userOps.map (UserOp.hashed Sample.toy)) y ∧
    get y.store.reader (Sample.toy [97]) 1 = .ok none ∧ get y.store.reader (Sample.toy [98]) 1 = .ok (some [3]) ∧
    get y.store.reader (Sample.toy [97]) 2 = .ok (some [9]) ∧
    ∃ P root, getWithProof Sample.T y.store.reader (Sample.toy [99]) 2 = .ok (none, P) ∧
      getRootHash Sample.T y.store.reader 2 = .ok root ∧
      P.verifyNonexistence Sample.T root (Sample.toy [99]) = .ok () := by
  obtain ⟨y, hy⟩ := Sample.user_reached
  have hd : ∀ k ∈ [99] :: userKeys Sample.userOps, Distinct Sample.toy (k :: userKeys Sample.userOps) :=
    fun k hk => Sample.userDistinct.cons_sub hk fun _ => List.mem_cons_of_mem _
  refine ⟨y, hy, ?_, ?_, ?_, ?_⟩
  · exact C61_get hy (by decide) (hd _ (by decide)) 1
  · exact C61_get hy (by decide) (hd _ (by decide)) 1
  · exact C61_get hy (by decide) (hd _ (by decide)) 2
  · obtain ⟨P, r, h1, h2, -, h4⟩ := C61_get_with_proof hy (by decide) (v := 2) ⟨by decide, by decide⟩ (hd [99] (by decide))
    exact ⟨P, r, h1, h2, h4 (by decide)⟩

namespace Sample

def userEntries : List Entry := [(toy [98], toy [3]), (toy [97], toy [9])]

theorem userLists : Lists T (mapAt (userOps.map (UserOp.hashed toy)) 2) userEntries := by
  have hd : ∀ k ∈ [99] :: userKeys userOps, Distinct toy (k :: userKeys userOps) :=
    fun k hk => userDistinct.cons_sub hk fun _ => List.mem_cons_of_mem _
  have ha : mapAt (userOps.map (UserOp.hashed toy)) 2 (toy [97]) = some [9] := mapAt_user (hd _ (by decide)) 2
  have hb : mapAt (userOps.map (UserOp.hashed toy)) 2 (toy [98]) = some [3] := mapAt_user (hd _ (by decide)) 2
  have hf : ∀ v, T.hash v = toy v := fun v => by simp [T, Hasher.hash, Hasher.ofDigest]
  refine ⟨by decide +kernel, fun k vh => ⟨fun h => ?_, ?_⟩⟩
  · rcases List.mem_cons.1 h with h | h
    · cases h; exact ⟨_, hb, (hf _).symm⟩
    · cases List.mem_singleton.1 h; exact ⟨_, ha, (hf _).symm⟩
  · rintro ⟨x, h1, rfl⟩
    obtain ⟨key, hk, rfl⟩ := mapAt_hashed_key (by rw [h1]; exact Option.some_ne_none x)
    have hk' : key = [97] ∨ key = [98] := by
      have : ∀ k ∈ userKeys userOps, k = [97] ∨ k = [98] := by decide
      exact this key hk
    rcases hk' with rfl | rfl
    · rw [ha] at h1; cases h1; rw [hf]; exact List.mem_cons_of_mem _ (List.mem_singleton.2 rfl)
    · rw [hb] at h1; cases h1; rw [hf]; exact List.mem_cons_self ..

end Sample

/-- The hypotheses of the soundness statements, for the proof that the library itself returns. -/
example : ∃ y P root, Reached Sample.T (Sample.userOps.map (UserOp.hashed Sample.toy)) y ∧
    getWithProof Sample.T y.store.reader (Sample.toy [97]) 2 = .ok (some [9], P) ∧
    getRootHash Sample.T y.store.reader 2 = .ok root ∧
    P.verifyExistence Sample.T root (Sample.toy [97]) [9] = .ok () ∧
    Lists Sample.T (mapAt (Sample.userOps.map (UserOp.hashed Sample.toy)) 2) Sample.userEntries ∧
    Spec.NoDigestCollision Sample.toy (Spec.treeStrings Sample.T Sample.userEntries ++
      Spec.proofStrings Sample.T P (Sample.toy [97])) [[9], [9]] := by
  obtain ⟨y, hy⟩ := Sample.user_reached
  have ra := hy.readAt (by decide) (v := 2) ⟨by decide, by decide⟩
  obtain ⟨P, r, h1, h2, h3⟩ := C04_existence_complete hy (by decide) (v := 2) ⟨by decide, by decide⟩
    (mapAt_user (Sample.userDistinct.cons_sub (ts := userKeys Sample.userOps) (by decide) fun _ => List.mem_cons_of_mem _) 2 :
      mapAt _ _ (Sample.toy [97]) = some [9])
  refine ⟨y, P, r, hy, h1, h2, h3, Sample.userLists, ?_⟩
  rw [ra.gwp] at h1
  have hP := (congrArg Prod.snd (Except.ok.inj h1)).symm
  simp only [] at hP
  subst hP
  exact ⟨by decide +kernel, by decide +kernel⟩

end Jmt
