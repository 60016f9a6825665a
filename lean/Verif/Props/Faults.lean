import Verif.Proofs.FaultsPut
import Verif.Props.Core
import Verif.Props.Batch
/-!
# Property C38: reads over a faulty store fail, they do not lie
-/
namespace Jmt
open Spec (FaultyView AnyFault OnlyErrors RootsNotLost)

variable {H : Hasher} {R' R : Reader} {ops : List Op} {y : Sys}

/-- C38, proofs: whatever lookups fail or report a node or value missing, when `get_with_proof`, `get_range_proof`,
`get_with_exclusion_proof` or `get_with_ics23_proof` succeeds it returns what it returns on the true store. -/
theorem C38_proofs_fail_or_agree (hf : AnyFault R' R) (v : Version) :
    (∀ k r, getWithProof H R' k v = .ok r → getWithProof H R k v = .ok r) ∧
    (∀ k r, getRangeProof H R' k v = .ok r → getRangeProof H R k v = .ok r) ∧
    (∀ k r, getWithExclusionProof H R' k v = .ok r → getWithExclusionProof H R k v = .ok r) ∧
    (∀ checked pre' pre key r, (∀ k, pre' k = pre k ∨ (∃ e, pre' k = .error e) ∨ pre' k = .ok none) →
      getWithIcs23Proof H checked R' pre' key v = .ok r → getWithIcs23Proof H checked R pre key v = .ok r) :=
  ⟨fun k _ h => (getWithProof_le hf k v).eq h, fun k _ h => (getRangeProof_le hf k v).eq h,
    fun k _ h => (getWithExclusionProof_le hf k v).eq h,
    fun checked _ _ key _ hp h => (getWithIcs23Proof_le hf hp checked key v).eq h⟩

/-- C38, roots and counts. -/
theorem C38_roots_fail_or_agree (hf : AnyFault R' R) (v : Version) :
    (∀ d, getRootHash H R' v = .ok d → getRootHash H R v = .ok d) ∧
    (∀ n, getLeafCount R' v = .ok n → getLeafCount R v = .ok n) :=
  ⟨fun _ h => (getRootHash_le hf v).eq h, fun _ h => (getLeafCount_le hf v).eq h⟩

/-- C38, iteration: a constructed iterator is the one of the true store, and a call of `next` that does not yield an error
yields the same item (or the same end) and leaves the same iterator as on the true store. -/
theorem C38_iteration_fails_or_agrees (hf : AnyFault R' R) (v : Version) :
    (∀ start it, Iter.new R' v start = .ok it → Iter.new R v start = .ok it) ∧
    (∀ i it, Iter.newByIndex R' v i = .ok it → Iter.newByIndex R v i = .ok it) ∧
    (∀ (it it' : Iter) (x : Iter.Item), it.next R' = .ok (x, it') → (∀ e, x ≠ some (.error e)) →
      it.next R = .ok (x, it')) :=
  ⟨fun start _ h => (iterNewLoop_le hf v start _ _ _).eq h, fun i _ h => (newByIndex_le hf v i).eq h,
    fun _ _ _ h hx => next_same hf h hx⟩

/-- C38, `get`: it succeeds with the true answer or fails, provided no stored value is reported missing. -/
theorem C38_get_fails_or_agrees {P : NodeKey → Prop} (hf : FaultyView P (fun _ _ => False) R' R) (k : KeyHash) (v : Version)
    (x : Option Value) (h : get R' k v = .ok x) : get R k v = .ok x := by
  rcases hf.value v k with h1 | ⟨e, h1⟩ | ⟨h1, -⟩
  · exact h1.symm.trans h
  · exact absurd (h1.symm.trans h) (by intro h; cases h)
  · exact h1.elim

/-- C38, writes: whatever lookups fail, and whatever nodes other than roots are reported missing, when `put_value_sets`,
`put_value_sets_with_proof`, `batch_put_value_sets` or `append_value_set` succeeds, it returns the root hashes, proofs and
update batch it returns on the true store. -/
theorem C38_writes_fail_or_agree (hf : RootsNotLost R' R) (v : Version) :
    (∀ sets r, putValueSets H R' sets v = .ok r → putValueSets H R sets v = .ok r) ∧
    (∀ sets r, putValueSetsWithProof H R' sets v = .ok r → putValueSetsWithProof H R sets v = .ok r) ∧
    (∀ sets caches r, batchPutValueSets H R' sets caches v = .ok r → batchPutValueSets H R sets caches v = .ok r) ∧
    (∀ vs r, appendValueSet H R' vs v = .ok r → appendValueSet H R vs v = .ok r) :=
  ⟨fun sets _ h => (putValueSets_le hf sets v).eq h, fun sets _ h => (putValueSetsWithProof_le hf sets v).eq h,
    fun sets caches _ h => (batchPutValueSets_le hf sets caches v).eq h, fun vs _ h => (appendValueSet_le hf vs v).eq h⟩

/-- C38 on reachable stores: a successful `get_with_proof` over any faulty view of the store returns the value of the
versioned map. -/
theorem C38_faulty_store_never_lies (hr : Reached H ops y) (hb : (setsOf ops).length < 2 ^ 64) {v : Version}
    (hv : Readable ops v) (hf : AnyFault R' y.store.reader) (k : KeyHash) (x : Option Value) (P : SMProof)
    (h : getWithProof H R' k v = .ok (x, P)) : x = mapAt ops v k := by
  obtain ⟨P', h'⟩ := C02_get_with_proof_agrees hr hb hv k
  have := (C38_proofs_fail_or_agree hf v).1 k _ h
  rw [h'] at this
  cases this
  rfl

namespace Sample

theorem of_okAnd {α : Type} {x : Except Err α} {p : α → Bool} (h : okAnd x p = true) : ∃ a, x = .ok a ∧ p a = true := by
  cases x with
  | error e => cases h
  | ok a => exact ⟨a, rfl, h⟩

/-- A store with the root of version `v` lost. -/
def loseRoot (R : Reader) (v : Version) : Reader :=
  { R with getNodeOption := fun k => if k = NodeKey.root v then .ok none else R.getNodeOption k }

theorem loseRoot_faulty (R : Reader) (v : Version) : AnyFault (loseRoot R v) R where
  node k := by
    by_cases h : k = NodeKey.root v
    · exact .inr (.inr ⟨trivial, if_pos h⟩)
    · exact .inl (if_neg h)
  value _ _ := .inl rfl
  rightmost := .inl rfl

/-- The restriction on roots is needed (false of the code without it): when the previous root is reported missing,
`put_value_sets` succeeds and returns the root of a tree without the older key, unlike on the true store. -/
theorem _root_.Jmt.C38_lost_root_is_silent :
    ∃ s : Store, ∃ hs hs', ∃ b b' : TreeUpdateBatch, AnyFault (loseRoot s.reader 0) s.reader ∧
      putValueSets T (loseRoot s.reader 0) [[(key 0x80, some [2])]] 1 = .ok (hs', b') ∧
      hs' = [Spec.root T [(key 0x80, T.hash [2])]] ∧
      putValueSets T s.reader [[(key 0x80, some [2])]] 1 = .ok (hs, b) ∧
      hs = [Spec.root T [(key 0x10, T.hash [1]), (key 0x80, T.hash [2])]] ∧ hs ≠ hs' := by
  have key : okAnd ((Store.new false).commit T [[(key 0x10, some [1])]] 0) (fun r =>
      okAnd (putValueSets T (loseRoot r.2.reader 0) [[(key 0x80, some [2])]] 1) (fun a =>
        okAnd (putValueSets T r.2.reader [[(key 0x80, some [2])]] 1) (fun b =>
          decide (a.1 = [Spec.root T [(Sample.key 0x80, T.hash [2])]] ∧
            b.1 = [Spec.root T [(Sample.key 0x10, T.hash [1]), (Sample.key 0x80, T.hash [2])]] ∧ b.1 ≠ a.1)))) = true := by
    decide +kernel
  obtain ⟨r, -, key⟩ := of_okAnd key
  obtain ⟨a, ha, key⟩ := of_okAnd key
  obtain ⟨b, hb, key⟩ := of_okAnd key
  obtain ⟨h1, h2, h3⟩ := of_decide_eq_true key
  exact ⟨r.2, b.1, a.1, b.2, a.2, loseRoot_faulty _ _, ha, h1, hb, h2, h3⟩

/-- A lost value makes `get` return `None` (this is why C38 for `get` excludes it): nothing in the reader's answer
distinguishes the two. -/
theorem _root_.Jmt.C38_lost_value_is_silent (R : Reader) (k : KeyHash) (v : Version) (x : Value)
    (hx : get R k v = .ok (some x)) :
    ∃ R', FaultyView (fun _ => False) (fun _ _ => True) R' R ∧ get R' k v = .ok none :=
  ⟨{ R with getValueOption := fun _ _ => .ok none },
    ⟨fun _ => .inl rfl, fun _ _ => .inr (.inr ⟨trivial, rfl⟩), .inl rfl⟩, rfl⟩

/-- A reader that loses the nodes not in `keep`. -/
def loseNodes (R : Reader) (keep : NodeKey → Bool) : Reader :=
  { R with getNodeOption := fun k => if keep k then R.getNodeOption k else .ok none }

/-- Faulty views in which roots are kept exist over every store. -/
theorem loseNodes_faulty (R : Reader) (keep : NodeKey → Bool) (hk : ∀ k, k.path = [] → keep k = true) :
    RootsNotLost (loseNodes R keep) R where
  node k := by
    by_cases h : keep k = true
    · exact .inl (if_pos h)
    · exact .inr (.inr ⟨fun hp => h (hk k hp), if_neg h⟩)
  value _ _ := .inl rfl
  rightmost := .inl rfl

/-- Keep everything except the node at path `8`. -/
def keep8 (k : NodeKey) : Bool := decide (k.path ≠ [8])

/-- Faults do not make everything fail, so the statements above are not empty: in a store with keys `0x10`, `0x80`, `0x81` and
`0xf0` of which the internal node at path `8` is lost, a write below path `1` and a read at path `2` succeed, while a write and
a read below path `8` fail. -/
theorem faults_survived :
    okAnd (putValueSets T (Store.new false).reader [[(key 0x10, some [1]), (key 0x80, some [2]), (key 0x81, some [3]),
        (key 0xf0, some [4])]] 0) (fun r =>
      let R := loseNodes (⟨r.2.nodeBatch.nodes, [], [], [], false⟩ : Store).reader keep8
      okAnd (putValueSets T R [[(key 0x11, some [5])]] 1) (fun _ => true) &&
      okAnd (getWithProof T R (key 0x20) 0) (fun r => decide (r.1 = none)) &&
      !(okAnd (putValueSets T R [[(key 0x82, some [5])]] 1) (fun _ => true)) &&
      !(okAnd (getWithProof T R (key 0x82) 0) (fun _ => true))) = true := by
  decide +kernel

/-- The hypotheses of C38 are met over the sample history. -/
example : ∃ y R', Reached H Sample.ops y ∧ AnyFault R' y.store.reader ∧ RootsNotLost (loseNodes y.store.reader keep8) y.store.reader := by
  obtain ⟨y, hy⟩ := Sample.reached H
  exact ⟨y, _, hy, loseRoot_faulty _ 1, loseNodes_faulty _ _ (by intro k h; simp [keep8, h])⟩

end Sample
end Jmt
