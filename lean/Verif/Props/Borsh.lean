import Verif.Proofs.ByteStore
import Verif.Props.Update
import Verif.Props.Range
/-!
# Property C49: borsh round trips, and stores that keep bytes
-/
namespace Jmt
open Borsh

variable {H : Hasher} {ops : List Op} {y : Sys}

/-- Reading is the inverse of writing, in both directions: exactly the encodings are read, and each as what was written. -/
def Borsh.Codec.Faithful {α : Type} (c : Codec α) : Prop := ∀ a bs, c.fromSlice bs = some a ↔ c.enc a = some bs

theorem Borsh.Lawful.faithful {α : Type} {c : Codec α} (h : Lawful c) : c.Faithful := fun a bs => h.fromSlice a bs

/-- C49: every type of the crate that derives the borsh traits is read back as it was written; no two values share an
encoding, and no value has two encodings. -/
theorem C49_roundtrip : nibblePath.Faithful ∧ nodeKey.Faithful ∧ Borsh.hash.Faithful ∧ nodeType.Faithful ∧ child.Faithful ∧
    children.Faithful ∧ internalNode.Faithful ∧ leafNode.Faithful ∧ node.Faithful ∧ smNode.Faithful ∧ smProof.Faithful ∧
    updateProof.Faithful ∧ rangeProof.Faithful ∧ nodeStats.Faithful ∧ nodeBatch.Faithful ∧ staleNodeIndex.Faithful ∧
    treeUpdateBatch.Faithful :=
  ⟨nibblePath_lawful.faithful, nodeKey_lawful.faithful, bytes32_lawful.faithful, nodeType_lawful.faithful, child_lawful.faithful,
    children_lawful.faithful, internalNode_lawful.faithful, leafNode_lawful.faithful, node_lawful.faithful,
    smNode_lawful.faithful, smProof_lawful.faithful, updateProof_lawful.faithful, rangeProof_lawful.faithful,
    nodeStats_lawful.faithful, nodeBatch_lawful.faithful, staleNodeIndex_lawful.faithful, treeUpdateBatch_lawful.faithful⟩

theorem smNode_enc (n : SMNode) : ∃ bs, smNode.enc n = some bs := by
  cases n with
  | null => exact ⟨_, rfl⟩
  | internal l r => exact ⟨1 :: (l.val ++ r.val), rfl⟩
  | leaf k v => exact ⟨2 :: (k.val ++ v.val), rfl⟩

theorem smProof_enc {p : SMProof} (h : p.siblings.length < 2 ^ 32) : ∃ bs, smProof.enc p = some bs :=
  pair_enc (option_enc fun _ _ => pair_enc (bytes32_enc _) (bytes32_enc _)) (vec_enc h fun n _ => smNode_enc n)

/-- C49, proofs: every proof that `get_with_proof` serves can be encoded, and what the receiver decodes is that proof. -/
theorem C49_served_proofs (hr : Reached H ops y) (hb : (setsOf ops).length < 2 ^ 64) {v : Version} (hv : Readable ops v)
    {k : KeyHash} {x p} (h : getWithProof H y.store.reader k v = .ok (x, p)) :
    ∃ bs, smProof.enc p = some bs ∧ smProof.fromSlice bs = some p := by
  rw [(hr.readAt hb hv).gwp k] at h
  cases h
  have hl := specProof_len H (entriesAfter H (setsOf ops) (v + 1)) k
  obtain ⟨bs, hbs⟩ := smProof_enc (p := specProof H (entriesAfter H (setsOf ops) (v + 1)) k) (by omega)
  exact ⟨bs, hbs, (smProof_lawful.fromSlice _ _).2 hbs⟩

/-- C49, range proofs. -/
theorem C49_served_range_proofs (hr : Reached H ops y) (hb : (setsOf ops).length < 2 ^ 64) {v : Version} (hv : Readable ops v)
    {k : KeyHash} {p} (h : getRangeProof H y.store.reader k v = .ok p) :
    ∃ bs, rangeProof.enc p = some bs ∧ rangeProof.fromSlice bs = some p := by
  unfold getRangeProof at h
  rw [(hr.readAt hb hv).gwp k, ok_bind] at h
  have hp : p = ⟨rightSiblingsOf (specProof H (entriesAfter H (setsOf ops) (v + 1)) k).siblings k⟩ := by
    cases hx : mapAt ops v k with
    | none => rw [hx] at h; cases h
    | some x => rw [hx] at h; cases h; rfl
  have hl := specProof_len H (entriesAfter H (setsOf ops) (v + 1)) k
  have hle : p.rightSiblings.length ≤ 256 := by
    rw [hp]
    unfold rightSiblingsOf
    rw [List.length_reverse]
    refine Nat.le_trans (List.length_filterMap_le _ _) ?_
    rw [List.length_zip, List.length_reverse]
    omega
  obtain ⟨bs, hbs⟩ : ∃ bs, rangeProof.enc p = some bs :=
    vec_enc (show p.rightSiblings.length < _ by omega) fun n _ => smNode_enc n
  exact ⟨bs, hbs, (rangeProof_lawful.fromSlice _ _).2 hbs⟩

theorem ProofsFor.lens {m : List Spec.Entry} {vs : ValueSet} {ps : List SMProof} (h : ProofsFor H m vs ps) :
    ps.length = vs.length ∧ ∀ p ∈ ps, p.siblings.length ≤ 256 := by
  induction h with
  | nil m => exact ⟨rfl, by simp⟩
  | @cons m k x P rest ps h1 _ ih =>
    refine ⟨by simp [ih.1], fun p hp => ?_⟩
    rcases List.mem_cons.1 hp with rfl | hp
    · cases h1 with
      | noop _ _ => simp
      | change _ => rw [subProof_root]; exact specProof_len _ _ _
    · exact ih.2 p hp

/-- C49, update proofs: those of every value set with fewer than 2^32 writes. -/
theorem C49_served_update_proofs (hr : Reached H ops y) (sets : List ValueSet)
    (hb : (setsOf ops).length + sets.length < 2 ^ 64) {res b}
    (h : putValueSetsWithProof H y.store.reader sets y.next = .ok (res, b)) :
    ∀ (j : Nat) (vs : ValueSet) newRoot proofs, sets[j]? = some vs → res[j]? = some (newRoot, proofs) → vs.length < 2 ^ 32 →
      ∃ bs, updateProof.enc proofs = some bs ∧ updateProof.fromSlice bs = some proofs := by
  obtain ⟨hn, hi⟩ := hr.inv (by omega)
  obtain ⟨tc, pss, tc', s', infos, a0, a1, -, a3, a4, a5, -⟩ := hi.commit' true sets
    (by unfold preGenesisVersion u64Size; omega)
  rw [← hn] at a0 a1
  have hsets := ProofSets.get (a4 rfl)
  unfold putValueSetsWithProof at h
  simp only [a0, ok_bind, a1] at h
  cases h
  intro j vs newRoot proofs hv hres hlen
  obtain ⟨g1, g2⟩ := List.getElem?_zip_eq_some.1 hres
  obtain ⟨l1, l2⟩ := (hsets.2 j vs proofs hv g2).lens
  obtain ⟨bs, hbs⟩ : ∃ bs, updateProof.enc proofs = some bs :=
    vec_enc (by omega) fun p hp => smProof_enc (by have := l2 p hp; omega)
  exact ⟨bs, hbs, (updateProof_lawful.fromSlice _ _).2 hbs⟩

/-- C49, updates: every node of an update batch can be encoded, and so can its key, as long as there have been fewer than
2^64 versions and fewer than 2^64 single writes. -/
theorem C49_update_encodes (hr : Reached H ops y) (sets : List ValueSet)
    (hb : (setsOf ops).length + sets.length < 2 ^ 64) (hw : numWrites (ops ++ [.commit sets]) < 2 ^ 64) {hs b}
    (hp : putValueSets H y.store.reader sets y.next = .ok (hs, b)) :
    ∀ k nd, b.nodeBatch.nodes.get? k = some nd → ∃ kb nb, nodeKey.enc k.packed = some kb ∧ node.enc nd = some nb := by
  intro k nd hk
  obtain ⟨hs', b', s', a1, a2, -, a4, a5⟩ := hr.commit sets hb
  rw [hp] at a1
  cases a1
  refine updateOf_enc (y' := ⟨s', y.next + sets.length⟩) (C48_update_contents hr sets hb hp a2) hr a5
    (by rw [setsOf_commit, List.length_append]; omega) hw (setsOf_commit _ _) ?_ (fun k nd h => ?_) hk
  · unfold horizon
    rw [List.foldl_append]
    rfl
  · show s'.nodes.get? k = _
    rw [a4.nodes, h]; rfl

/-- C49, updates of the batch API. -/
theorem C49_batch_update_encodes (hr : Reached H ops y) (sets : List (List (KeyHash × Value)))
    (hb : (setsOf ops).length + sets.length < 2 ^ 64) (hw : numWrites (ops ++ [.batch sets]) < 2 ^ 64) {hs b}
    (hp : batchPutValueSets H y.store.reader sets none y.next = .ok (hs, b)) :
    ∀ k nd, b.nodeBatch.nodes.get? k = some nd → ∃ kb nb, nodeKey.enc k.packed = some kb ∧ node.enc nd = some nb := by
  intro k nd hk
  obtain ⟨hy, hi⟩ := hr.inv (by omega)
  obtain ⟨hs', b', s', a1, a2, a4⟩ := hi.batch sets none (batch_nonempty hp) (cachesFor_none _ _)
    (by unfold preGenesisVersion u64Size; omega)
  rw [← hy, hp] at a1
  cases a1
  have hlen : setsOf (ops ++ [.batch sets]) = setsOf ops ++ sets.map someSet := by
    rw [setsOf_append]; simp [setsOf]
  have a5 : Reached H (ops ++ [.batch sets]) ⟨s', y.next + sets.length⟩ := by
    refine hr.run ?_
    show (y.step H (.batch sets) >>= fun z => Sys.run H [] z) = _
    unfold Sys.step Store.commitBatch
    simp only [hp, a2, ok_bind]
    rfl
  refine updateOf_enc (y' := ⟨s', y.next + sets.length⟩) (C48_batch_update_contents hr sets hb hp a2) hr a5
    (by rw [hlen, List.length_append, List.length_map]; omega) hw hlen ?_ (fun k nd h => ?_) hk
  · unfold horizon
    rw [List.foldl_append]
    rfl
  · show s'.nodes.get? k = _
    rw [a4.nodes, h]; rfl

/-! ### Byte stores -/

theorem byteReader_get {db vals} {k : NodeKey} {kb} (hk : nodeKey.enc k.packed = some kb) :
    (byteReader db vals).getNodeOption k = match db kb with
      | none => .ok none
      | some nb => match node.fromSlice nb with
        | some n => .ok (some n)
        | none => .error (.io "not a node") := by
  unfold byteReader
  simp only [hk]
  rfl

theorem byteReader_congr {db db' vals vals'} {k : NodeKey} (h : ∀ kb, nodeKey.enc k.packed = some kb → db' kb = db kb) :
    (byteReader db' vals').getNodeOption k = (byteReader db vals).getNodeOption k := by
  cases hk : nodeKey.enc k.packed with
  | none =>
    unfold byteReader
    simp only [hk]
  | some kb => rw [byteReader_get hk, byteReader_get hk, h kb hk]

theorem byteReader_some {db vals} {k : NodeKey} {kb nb n} (hk : nodeKey.enc k.packed = some kb) (hn : node.enc n = some nb)
    (h : db kb = some nb) : (byteReader db vals).getNodeOption k = .ok (some n) := by
  rw [byteReader_get hk, h]
  simp only [(node_lawful.fromSlice n nb).2 hn]

theorem bytesWritten {b : NodeBatch} {db' db vals' vals} (h : Spec.BytesWritten b db' db vals' vals)
    (henc : ∀ k nd, b.nodes.get? k = some nd → ∃ kb nb, nodeKey.enc k.packed = some kb ∧ node.enc nd = some nb) :
    Spec.Written b (byteReader db' vals') (byteReader db vals) where
  new k n hk := by
    obtain ⟨kb, nb, h1, h2⟩ := henc k n hk
    exact byteReader_some h1 h2 (h.new kb nb ⟨k, n, hk, h1, h2⟩)
  old k hk := by
    refine byteReader_congr fun kb hkb => h.old kb ?_
    rintro nb ⟨k', n', h1, h2, -⟩
    rw [packed_inj hkb h2, h1] at hk
    cases hk
  newValue := h.newValue
  oldValue := h.oldValue

theorem bytesPartlyWritten {b : NodeBatch} {db' db vals' vals} (h : Spec.BytesPartlyWritten b db' db vals' vals) :
    Spec.PartlyWritten b (byteReader db' vals') (byteReader db vals) where
  node k := by
    cases hk : nodeKey.enc k.packed with
    | none => exact .inl (byteReader_congr fun kb hkb => by rw [hk] at hkb; cases hkb)
    | some kb =>
      rcases h.node kb with h1 | ⟨nb, ⟨k', n, h1, h2, h3⟩, h4⟩
      · exact .inl (byteReader_congr fun kb' hkb => by rw [hk] at hkb; cases hkb; exact h1)
      · right
        have := packed_inj hk h2
        subst this
        exact ⟨n, h1, byteReader_some hk h3 h4⟩
  value := h.value

/-- C49, byte stores: a store that keeps nodes as bytes under bytes is a backend in the sense of C47, so everything proved
of backends holds for it. -/
theorem C49_byte_store_is_backend {db vals n st} (h : ByteRun H ops db vals n st) (hb : (setsOf ops).length < 2 ^ 64)
    (hw : numWrites ops < 2 ^ 64) : BackendRun H ops (byteReader db vals) n st := by
  induction h with
  | start => exact .start (fun k => by unfold byteReader; dsimp only; split <;> rfl) (fun _ _ => rfl)
  | @commit ops db vals n st sets hs b db1 vals1 db' vals' h hput hpart hwrite ih =>
    have hlen := hb
    rw [setsOf_commit, List.length_append] at hlen
    have hw' := hw
    rw [numWrites_append] at hw'
    have hrun := ih (by omega) (by omega)
    obtain ⟨y, hs', b', r, c1, c2, c3, c4, -⟩ := C47_backend_commit hrun sets hlen
    rw [hput] at c3
    cases c3
    have henc := C49_update_encodes c1 sets hlen hw (hs := hs) (b := b) (by rw [c2]; exact c4)
    exact .commit hrun hput (bytesPartlyWritten hpart) (bytesWritten hwrite henc)
  | @batch ops db vals n st sets hs b db1 vals1 db' vals' h hput hpart hwrite ih =>
    have hlen := hb
    rw [setsOf_append, List.length_append, show setsOf [Op.batch sets] = sets.map someSet from by simp [setsOf],
      List.length_map] at hlen
    have hw' := hw
    rw [numWrites_append] at hw'
    have hrun := ih (by omega) (by omega)
    obtain ⟨y, r, c1, c2, c3, c4⟩ := C47_backend_batch hrun sets (batch_nonempty hput) hlen
    rw [hput] at c3
    cases c3
    have henc := C49_batch_update_encodes c1 sets hlen hw (hs := hs) (b := b) (by rw [c2]; exact c4)
    exact .batch hrun hput (bytesPartlyWritten hpart) (bytesWritten hwrite henc)
  | @purge ops db vals n st r db' h hp ih =>
    rw [setsOf_purge] at hb
    rw [numWrites_append] at hw
    refine .purge (ih hb (by omega)) ⟨fun k hk => byteReader_congr fun kb hkb => hp kb fun x hx hxe => ?_, fun _ _ => rfl⟩
    exact hk x hx (packed_inj hxe hkb)

/-- C49, spelled out: reading from the bytes, every readable version shows its map with proofs that verify against its root,
and the next commit goes through. -/
theorem C49_byte_store_reads {db vals n st} (h : ByteRun H ops db vals n st) (hb : (setsOf ops).length < 2 ^ 64)
    (hw : numWrites ops < 2 ^ 64) :
    (∀ v, Readable ops v → ∀ es, Spec.Lists H (mapAt ops v) es → getRootHash H (byteReader db vals) v = .ok (Spec.root H es) ∧
      ∀ k, get (byteReader db vals) k v = .ok (mapAt ops v k) ∧
        ∃ p, getWithProof H (byteReader db vals) k v = .ok (mapAt ops v k, p) ∧
          p.verify H (Spec.root H es) k (mapAt ops v k) = .ok ()) ∧
    ∀ sets : List ValueSet, (setsOf ops).length + sets.length < 2 ^ 64 →
      ∃ r, putValueSets H (byteReader db vals) sets n = .ok r := by
  have hrun := C49_byte_store_is_backend h hb hw
  refine ⟨fun v hv => (C47_backend_reads hrun hb hv).2, fun sets hs => ?_⟩
  obtain ⟨-, hs', b, -, -, -, h1, -⟩ := C47_backend_commit hrun sets hs
  exact ⟨_, h1⟩

theorem bytesOf_unique {b : NodeBatch} {kb nb nb'} (h : Spec.BytesOf b kb nb) (h' : Spec.BytesOf b kb nb') : nb = nb' := by
  obtain ⟨k, n, h1, h2, h3⟩ := h
  obtain ⟨k', n', h1', h2', h3'⟩ := h'
  have := packed_inj h2 h2'
  subst this
  rw [h1] at h1'
  cases h1'
  rw [h3] at h3'
  exact Option.some.inj h3'

theorem bounded_max {p : Nat → Prop} : ∀ v w, p w → w ≤ v → ∃ m, p m ∧ m ≤ v ∧ ∀ u, p u → u ≤ v → u ≤ m := by
  intro v
  induction v with
  | zero => intro w hw hle; exact ⟨0, by rwa [Nat.le_zero.1 hle] at hw, Nat.le_refl _, fun u _ h => h⟩
  | succ v ih =>
    intro w hw hle
    by_cases hp : p (v + 1)
    · exact ⟨v + 1, hp, Nat.le_refl _, fun u _ h => h⟩
    · have hne : w ≠ v + 1 := by rintro rfl; exact hp hw
      obtain ⟨m, h1, h2, h3⟩ := ih w hw (by omega)
      refine ⟨m, h1, by omega, fun u hu hle => ?_⟩
      have hne : u ≠ v + 1 := by rintro rfl; exact hp hu
      exact h3 u hu (by omega)

/-- A byte store can write every batch. -/
theorem bytesWritten_exists (b : NodeBatch) (db : ByteDb) (vals) : ∃ db' vals', Spec.BytesWritten b db' db vals' vals := by
  have h1 : ∀ kb, ∃ r : Option (List UInt8), (∀ nb, Spec.BytesOf b kb nb → r = some nb) ∧
      ((∀ nb, ¬ Spec.BytesOf b kb nb) → r = db kb) := by
    intro kb
    by_cases h : ∃ nb, Spec.BytesOf b kb nb
    · obtain ⟨nb, hnb⟩ := h
      exact ⟨some nb, fun nb' h' => by rw [bytesOf_unique hnb h'], fun hno => absurd hnb (hno nb)⟩
    · exact ⟨db kb, fun nb hnb => absurd ⟨nb, hnb⟩ h, fun _ => rfl⟩
  have h2 : ∀ e : Version × KeyHash, ∃ r : Except Err (Option Value),
      (∀ w x, b.values.get? (w, e.2) = some x → w ≤ e.1 →
        (∀ u x', b.values.get? (u, e.2) = some x' → u ≤ e.1 → u ≤ w) → r = .ok x) ∧
      ((∀ w x, b.values.get? (w, e.2) = some x → e.1 < w) → r = vals e.1 e.2) := by
    rintro ⟨v, k⟩
    by_cases h : ∃ w, (∃ x, b.values.get? (w, k) = some x) ∧ w ≤ v
    · obtain ⟨w, hw, hle⟩ := h
      obtain ⟨m, ⟨x, hx⟩, hm, hmax⟩ := bounded_max (p := fun w => ∃ x, b.values.get? (w, k) = some x) v w hw hle
      refine ⟨.ok x, fun w' x' hx' hle' hmax' => ?_, fun hno => ?_⟩
      · have : w' = m := Nat.le_antisymm (hmax w' ⟨x', hx'⟩ hle') (hmax' m x hx hm)
        dsimp only at hx'
        rw [this, hx] at hx'
        cases hx'
        rfl
      · have := hno m x hx
        dsimp only at this
        omega
    · refine ⟨vals v k, fun w x hx hle _ => absurd ⟨w, ⟨x, hx⟩, hle⟩ h, fun _ => rfl⟩
  exact ⟨fun kb => Classical.choose (h1 kb), fun v k => Classical.choose (h2 (v, k)),
    fun kb => (Classical.choose_spec (h1 kb)).1, fun kb => (Classical.choose_spec (h1 kb)).2,
    fun v k => (Classical.choose_spec (h2 (v, k))).1, fun v k => (Classical.choose_spec (h2 (v, k))).2⟩

/-- C49, not vacuous: every history of allowed operations can be run on a byte store. -/
theorem C49_byte_store_exists (H : Hasher) (ops : List Op) (hok : ∀ op ∈ ops, op.Allowed) (hb : (setsOf ops).length < 2 ^ 64)
    (hw : numWrites ops < 2 ^ 64) : ∃ db vals n st, ByteRun H ops db vals n st := by
  induction ops using list_snoc_ind with
  | h0 => exact ⟨_, _, _, _, .start⟩
  | h1 ops op ih =>
    have hlen := length_setsOf_append ops [op]
    have hw' := hw
    rw [numWrites_append] at hw'
    obtain ⟨db, vals, n, st, h⟩ := ih (fun o ho => hok o (by simp [ho])) (by omega) (by omega)
    have hrun := C49_byte_store_is_backend h (by omega) (by omega)
    have hpart : ∀ b, Spec.BytesPartlyWritten b db db vals vals := fun b => ⟨fun _ => .inl rfl, fun _ _ _ => rfl⟩
    cases op with
    | commit sets =>
      have hl : (setsOf [Op.commit sets]).length = sets.length := by simp [setsOf]
      obtain ⟨-, hs, b, -, -, -, h1, -⟩ := C47_backend_commit hrun sets (by omega)
      obtain ⟨db', vals', hwr⟩ := bytesWritten_exists b.nodeBatch db vals
      exact ⟨_, _, _, _, .commit h h1 (hpart _) hwr⟩
    | batch sets =>
      have hl : (setsOf [Op.batch sets]).length = sets.length := by simp [setsOf]
      obtain ⟨-, ⟨hs, b⟩, -, -, h1, -⟩ := C47_backend_batch hrun sets (hok (.batch sets) (by simp)) (by omega)
      obtain ⟨db', vals', hwr⟩ := bytesWritten_exists b.nodeBatch db vals
      exact ⟨_, _, _, _, .batch h h1 (hpart _) hwr⟩
    | purge r => exact ⟨_, _, _, _, .purge (r := r) h (fun _ _ => rfl)⟩

/-- The sample history on bytes. -/
example (H : Hasher) : ∃ db vals n st, ByteRun H Sample.ops db vals n st ∧
    get (byteReader db vals) (Sample.key 0x1f) 3 = .ok (mapAt Sample.ops 3 (Sample.key 0x1f)) := by
  obtain ⟨db, vals, n, st, h⟩ := C49_byte_store_exists H Sample.ops Sample.allowed (by decide) (by decide)
  exact ⟨db, vals, n, st, h, (((C49_byte_store_reads h (by decide) (by decide)).1 3 Sample.readable3 _
    (lists_entriesAfter H _ _)).2 _).1⟩

/-- C49, the layout of a node key: version, number of nibbles, number of bytes, all little endian, and the packed path. -/
theorem C49_key_layout {k : NodeKey} (hv : k.version < 2 ^ 64) (hp : k.path.length ≤ 64) :
    nodeKey.enc k.packed = some (leBytes 8 k.version ++ (leBytes 8 k.path.length ++
      (leBytes 4 ((k.path.length + 1) / 2) ++ Spec.pack k.path))) := by
  have hraw : ∀ l : List UInt8, encSeq u8 l = some l := by
    intro l
    induction l with
    | nil => rfl
    | cons b l ih => simp only [encSeq, ih, show u8.enc b = some [b] from rfl, Option.bind_eq_bind, Option.bind_some, List.singleton_append]
  have h1 : (uint 8).enc k.version = some (leBytes 8 k.version) := if_pos (by simpa using hv)
  have h2 : (uint 8).enc k.path.length = some (leBytes 8 k.path.length) := if_pos (by show _ < 256 ^ 8; omega)
  have h3 : (uint 4).enc (Spec.pack k.path).length = some (leBytes 4 ((k.path.length + 1) / 2)) := by
    rw [pack_length]
    exact if_pos (by show _ < 256 ^ 4; omega)
  show (do
    let a ← (uint 8).enc k.version
    let b ← (do
      let a ← (uint 8).enc k.path.length
      let b ← (do
        let n ← (uint 4).enc (Spec.pack k.path).length
        let xs ← encSeq u8 (Spec.pack k.path)
        some (n ++ xs))
      some (a ++ b))
    some (a ++ b)) = _
  simp only [h1, h2, h3, hraw, Option.bind_eq_bind, Option.bind_some]

/-- A node key and a leaf in bytes. -/
example : nodeKey.enc (NodeKey.packed ⟨258, [1, 2, 3]⟩) = some [2, 1, 0, 0, 0, 0, 0, 0, 3, 0, 0, 0, 0, 0, 0, 0, 2, 0, 0, 0, 0x12, 0x30] ∧
    node.fromSlice (2 :: (List.replicate 32 7 ++ List.replicate 32 8)) =
      some (.leaf ⟨⟨List.replicate 32 7, by simp⟩, ⟨List.replicate 32 8, by simp⟩⟩) := by
  refine ⟨by decide, (node_lawful.fromSlice _ _).2 ?_⟩
  rfl

/-- C49, what decoding does not check: bytes that were not written by the encoder are read as a path whose nibbles cannot be
iterated (indexing panics) and as an internal node that `InternalNode::new` refuses. -/
theorem C49_decoding_is_unchecked :
    (∃ bs p msg, nibblePath.fromSlice bs = some p ∧ p.nibbles.next = .error (.panic msg)) ∧
    (∃ bs n msg, node.fromSlice bs = some (.internal n) ∧ InternalNode.new n.children = .error (.panic msg)) := by
  refine ⟨⟨[5, 0, 0, 0, 0, 0, 0, 0, 0, 0, 0, 0], ⟨5, []⟩, _, by decide, rfl⟩,
    ⟨1 :: List.replicate 32 0, ⟨⟨fun _ => none, 0⟩, 0⟩, _, ?_, rfl⟩⟩
  exact (node_lawful.fromSlice _ _).2 (by decide)

end Jmt
