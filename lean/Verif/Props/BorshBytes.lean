import Verif.Props.UpdateBytes
import Verif.Spec.BorshBytes
/-!
# Property C49: the bytes of every type
-/
namespace Jmt
open Borsh

variable {H : Hasher} {ops : List Op} {y : Sys}

namespace Borsh

/-- What is written for `a` is `g a`. -/
def Writes {α : Type} (c : Codec α) (g : α → List UInt8) : Prop := ∀ a bs, c.enc a = some bs → bs = g a

theorem uint_writes (n : Nat) : Writes (uint n) (leBytes n) := by
  intro a bs h
  simp only [uint] at h
  split at h <;> cases h
  rfl

theorem bytes32_writes : Writes bytes32 fun b => b.val := by
  intro a bs h; cases h; rfl

theorem pair_writes {α β : Type} {c : Codec α} {d : Codec β} {g : α → List UInt8} {g' : β → List UInt8} (h : Writes c g)
    (h' : Writes d g') : Writes (pair c d) fun p => g p.1 ++ g' p.2 := by
  intro p bs hp
  simp only [pair, Option.bind_eq_bind, Option.bind_eq_some_iff] at hp
  obtain ⟨a, ha, b, hb, he⟩ := hp
  cases he
  rw [h _ _ ha, h' _ _ hb]

theorem iso_writes {α β : Type} {c : Codec α} {f : α → β} {g : β → α} {t : α → List UInt8} (h : Writes c t) :
    Writes (iso c f g) fun b => t (g b) := fun b bs hb => h (g b) bs hb

theorem option_writes {α : Type} {c : Codec α} {g : α → List UInt8} (h : Writes c g) : Writes (option c) (Spec.Bytes.opt g) := by
  intro o bs ho
  cases o with
  | none => cases ho; rfl
  | some a =>
    simp only [option, Option.map_eq_some_iff] at ho
    obtain ⟨b, hb, rfl⟩ := ho
    rw [h _ _ hb]; rfl

theorem seq_writes {α : Type} {c : Codec α} {g : α → List UInt8} (h : Writes c g) : ∀ l bs, encSeq c l = some bs →
    bs = (l.map g).flatten := by
  intro l
  induction l with
  | nil => intro bs hb; cases hb; rfl
  | cons a l ih =>
    intro bs hb
    simp only [encSeq, Option.bind_eq_bind, Option.bind_eq_some_iff] at hb
    obtain ⟨x, hx, xs, hxs, he⟩ := hb
    cases he
    rw [h _ _ hx, ih _ hxs]; rfl

theorem vec_writes {α : Type} {c : Codec α} {g : α → List UInt8} (h : Writes c g) :
    Writes (vec c) fun l => Spec.Bytes.vec (l.map g) := by
  intro l bs hl
  simp only [vec, Option.bind_eq_bind, Option.bind_eq_some_iff] at hl
  obtain ⟨x, hx, xs, hxs, he⟩ := hl
  cases he
  rw [uint_writes 4 _ _ hx, seq_writes h _ _ hxs]
  simp [Spec.Bytes.vec]

theorem raw_writes : Writes (vec u8) Spec.Bytes.bytes := by
  intro l bs hl
  rw [vec_writes (c := u8) (g := fun b => [b]) (fun a bs h => by cases h; rfl) l bs hl]
  have : ∀ l : List UInt8, (l.map fun b => [b]).flatten = l := by
    intro l
    induction l with
    | nil => rfl
    | cons b l ih => simpa using ih
  simp [Spec.Bytes.vec, Spec.Bytes.bytes, this]

theorem array_writes {α : Type} {n : Nat} {c : Codec α} {g : α → List UInt8} (h : Writes c g) :
    Writes (array n c) fun s => ((List.finRange n).map fun i => g (s i)).flatten := by
  intro s bs hs
  rw [seq_writes h _ _ hs]
  have : (List.ofFn s).map g = (List.finRange n).map fun i => g (s i) := by apply List.ext_getElem <;> simp
  exact congrArg List.flatten this

theorem sorted_writes {α : Type} {lt : α → α → Bool} {c : Codec α} {g : α → List UInt8} (h : Writes c g) :
    Writes (sorted lt c) fun l => Spec.Bytes.vec (l.map g) := by
  intro l bs hl
  simp only [sorted] at hl
  split at hl
  · exact vec_writes h l bs hl
  · cases hl

theorem nodeKey_writes : Writes nodeKey Spec.Bytes.nodeKey := by
  intro k bs h
  rw [iso_writes (pair_writes (uint_writes 8) (iso_writes (pair_writes (uint_writes 8) raw_writes))) k bs h]
  simp [Spec.Bytes.nodeKey]

theorem nodeType_writes : Writes nodeType Spec.Bytes.nodeType := by
  intro a bs h
  cases a with
  | leaf => cases h; rfl
  | internal n =>
    simp only [nodeType, Option.map_eq_some_iff] at h
    obtain ⟨b, hb, rfl⟩ := h
    rw [uint_writes 8 _ _ hb]; rfl

theorem child_writes : Writes child Spec.Bytes.child := by
  intro c bs h
  rw [iso_writes (pair_writes bytes32_writes (pair_writes (uint_writes 8) nodeType_writes)) c bs h]
  simp [Spec.Bytes.child]

theorem hashes_writes : Writes (pair bytes32 bytes32) fun p => p.1.val ++ p.2.val := pair_writes bytes32_writes bytes32_writes

theorem node_writes : Writes node Spec.Bytes.node := by
  intro a bs h
  cases a with
  | null => cases h; rfl
  | internal n =>
    simp only [node, Option.map_eq_some_iff] at h
    obtain ⟨b, hb, rfl⟩ := h
    rw [iso_writes (pair_writes (iso_writes (pair_writes (array_writes (option_writes child_writes)) (uint_writes 8))) (uint_writes 8)) n b hb]
    simp [Spec.Bytes.node]
  | leaf l =>
    simp only [node, Option.map_eq_some_iff] at h
    obtain ⟨b, hb, rfl⟩ := h
    rw [iso_writes hashes_writes l b hb]; rfl

theorem smNode_writes : Writes smNode Spec.Bytes.smNode := by
  intro a bs h
  cases a with
  | null => cases h; rfl
  | internal l r =>
    simp only [smNode, Option.map_eq_some_iff] at h
    obtain ⟨b, hb, rfl⟩ := h
    rw [hashes_writes _ b hb]; rfl
  | leaf l r =>
    simp only [smNode, Option.map_eq_some_iff] at h
    obtain ⟨b, hb, rfl⟩ := h
    rw [hashes_writes _ b hb]; rfl

theorem smProof_writes : Writes smProof Spec.Bytes.proof :=
  iso_writes (pair_writes (option_writes hashes_writes) (vec_writes smNode_writes))

theorem nodeStats_writes : Writes nodeStats Spec.Bytes.nodeStats := by
  intro s bs h
  rw [iso_writes (pair_writes (uint_writes 8) (pair_writes (uint_writes 8) (pair_writes (uint_writes 8) (uint_writes 8)))) s bs h]
  simp [Spec.Bytes.nodeStats]

theorem nodeBatch_writes : Writes nodeBatch Spec.Bytes.nodeBatch := by
  intro b bs h
  rw [pair_writes (sorted_writes (pair_writes nodeKey_writes node_writes))
    (sorted_writes (pair_writes (pair_writes (uint_writes 8) bytes32_writes) (option_writes raw_writes))) b bs h]
  rfl

theorem treeUpdateBatch_writes : Writes treeUpdateBatch Spec.Bytes.update := by
  intro b bs h
  rw [pair_writes nodeBatch_writes (pair_writes (sorted_writes (pair_writes (uint_writes 8) nodeKey_writes))
    (vec_writes nodeStats_writes)) b bs h]
  simp [Spec.Bytes.update]

end Borsh

/-- C49, the bytes: whatever is encoded, the bytes are those of the specification. -/
theorem C49_bytes :
    (∀ k bs, nodeKey.enc k = some bs → bs = Spec.Bytes.nodeKey k) ∧
    (∀ nd bs, node.enc nd = some bs → bs = Spec.Bytes.node nd) ∧
    (∀ p bs, smProof.enc p = some bs → bs = Spec.Bytes.proof p) ∧
    (∀ ps bs, updateProof.enc ps = some bs → bs = Spec.Bytes.updateProof ps) ∧
    (∀ p bs, rangeProof.enc p = some bs → bs = Spec.Bytes.rangeProof p) ∧
    (∀ u bs, treeUpdateBatch.enc u = some bs → bs = Spec.Bytes.update u) :=
  ⟨nodeKey_writes, node_writes, smProof_writes, vec_writes smProof_writes, iso_writes (vec_writes smNode_writes),
    treeUpdateBatch_writes⟩

/-- C49, the bytes of served proofs, which are also what is read back as them. -/
theorem C49_served_proof_bytes (hr : Reached H ops y) (hb : (setsOf ops).length < 2 ^ 64) {v : Version} (hv : Readable ops v)
    {k : KeyHash} {o p} (h : getWithProof H y.store.reader k v = .ok (o, p)) :
    smProof.enc p = some (Spec.Bytes.proof p) ∧ smProof.fromSlice (Spec.Bytes.proof p) = some p := by
  obtain ⟨bs, h1, h2⟩ := C49_served_proofs hr hb hv h
  cases smProof_writes _ _ h1
  exact ⟨h1, h2⟩

/-- C49, the bytes of all nodes of an update under their keys. -/
theorem C49_update_bytes (hr : Reached H ops y) (sets : List ValueSet)
    (hb : (setsOf ops).length + sets.length < 2 ^ 64) (hw : numWrites (ops ++ [.commit sets]) < 2 ^ 64) {hs b}
    (hp : putValueSets H y.store.reader sets y.next = .ok (hs, b)) :
    ∀ k nd, b.nodeBatch.nodes.get? k = some nd →
      nodeKey.enc k.packed = some (Spec.Bytes.nodeKey k.packed) ∧ node.enc nd = some (Spec.Bytes.node nd) := by
  intro k nd hk
  obtain ⟨kb, nb, h1, h2⟩ := C49_update_encodes hr sets hb hw hp k nd hk
  cases nodeKey_writes _ _ h1
  cases node_writes _ _ h2
  exact ⟨h1, h2⟩

/-- A key and a range proof, written out. -/
example : Spec.Bytes.nodeKey (NodeKey.packed ⟨258, [1, 2, 3]⟩) =
      [2, 1, 0, 0, 0, 0, 0, 0, 3, 0, 0, 0, 0, 0, 0, 0, 2, 0, 0, 0, 0x12, 0x30] ∧
    Spec.Bytes.rangeProof ⟨[.null, .null]⟩ = [2, 0, 0, 0, 0, 0] := by decide

/-- A first update, and a served proof. -/
example (H : Hasher) : (∃ y hs b, Reached H [] y ∧ putValueSets H y.store.reader [[(Sample.key 7, some [1])]] y.next = .ok (hs, b) ∧
    ∀ k nd, b.nodeBatch.nodes.get? k = some nd →
      nodeKey.enc k.packed = some (Spec.Bytes.nodeKey k.packed) ∧ node.enc nd = some (Spec.Bytes.node nd)) ∧
    ∃ y p, Reached H Sample.ops y ∧
      getWithProof H y.store.reader (Sample.key 0x1f) 3 = .ok (mapAt Sample.ops 3 (Sample.key 0x1f), p) ∧
      smProof.fromSlice (Spec.Bytes.proof p) = some p := by
  constructor
  · obtain ⟨y, hy⟩ : ∃ y, Reached H [] y := ⟨⟨Store.new false, 0⟩, false, rfl⟩
    obtain ⟨hs, b, _, h, _⟩ := hy.commit [[(Sample.key 7, some [1])]] (by decide)
    exact ⟨y, hs, b, hy, h, C49_update_bytes hy _ (by decide) (by decide) h⟩
  · obtain ⟨y, hy⟩ := Sample.reached H
    have h := (hy.readAt Sample.bound Sample.readable3).gwp (Sample.key 0x1f)
    exact ⟨y, _, hy, h, (C49_served_proof_bytes hy Sample.bound Sample.readable3 h).2⟩

end Jmt
