import Verif.Spec.Overwrite
import Verif.Model.Proof
import Verif.Spec.Hashing
/-!
# Specification of a light client: it keeps one root hash and follows the updates it is sent
-/
namespace Jmt

/-- What a full node sends for one version: the value set, the root hash after it, and one proof per write
(the output of `put_value_sets_with_proof`, src/tree.rs:484-525). -/
structure Msg where
  updates : ValueSet
  newRoot : Digest
  proofs : List SMProof

/-- The client: for each message it calls `verify_update` (src/types/proof/definition.rs:536-574) from the root hash it
holds, and on success takes over the new root hash. -/
def follow (H : Hasher) (checked : Bool) : Digest → List Msg → Except Err Digest
  | root, [] => .ok root
  | root, m :: ms => do
    SMProof.verifyUpdate H checked m.proofs root m.newRoot m.updates
    follow H checked m.newRoot ms

/-- The messages for one call of `put_value_sets_with_proof`. -/
def messages (sets : List ValueSet) (res : List (Digest × List SMProof)) : List Msg :=
  (sets.zip res).map (fun p => ⟨p.1, p.2.1, p.2.2⟩)

/-- A full node in state `y0` after the history `base` goes on, pruning and committing through
`put_value_sets_with_proof`; `ms` is everything it sends. -/
inductive Serves (H : Hasher) (base : List Op) (y0 : Sys) : List Op → Sys → List Msg → Prop
  | start : Serves H base y0 base y0 []
  | purge {ops y ms s'} (r : Version) : Serves H base y0 ops y ms → y.store.purgeStaleNodes r = .ok s' →
      Serves H base y0 (ops ++ [.purge r]) ⟨s', y.next⟩ ms
  | commit {ops y ms s' res b} (sets : List ValueSet) : Serves H base y0 ops y ms →
      putValueSetsWithProof H y.store.reader sets y.next = .ok (res, b) →
      y.store.writeTreeUpdateBatch b = .ok s' →
      Serves H base y0 (ops ++ [.commit sets]) ⟨s', y.next + sets.length⟩ (ms ++ messages sets res)

/-- The map after all messages. -/
def Spec.Map.afterMsgs (s : Spec.Map) (ms : List Msg) : Spec.Map := ms.foldl (fun s m => s.writes m.updates) s

/-- The guard of C17: overflow checks are on; or (release builds) the proof fits in memory (a Rust vector of 65-byte siblings has fewer than
`2^57`), a delete comes with at most 256 siblings, and the number of siblings is not one more than the number of leading bits that the leaf
of the proof has in common with the updated key. -/
def UpdateGuard (checked : Bool) (P : SMProof) (k : KeyHash) (x : Option Value) : Prop :=
  checked = true ∨ (P.siblings.length ≤ 2 ^ 57 ∧ (x = none → P.siblings.length ≤ 256) ∧
    ∀ l, P.leaf = some l → P.siblings.length ≠ Bytes32.commonPrefixBitsLen k l.1 + 1)

/-- Messages of any origin, read as updates of the map `s`: the guard holds, a delete comes with a leaf unless its key is
absent, and checking the proofs meets no hash collision with the tree of the map at that point. -/
def FairMsgs (H : Hasher) (checked : Bool) : Spec.Map → List Msg → Prop
  | _, [] => True
  | s, m :: ms => (∀ j k x P, m.updates[j]? = some (k, x) → m.proofs[j]? = some P →
        UpdateGuard checked P k x ∧
        (x = none → P.leaf = none → (s.writes (m.updates.take j)) k = none) ∧
        ∀ em, Spec.Lists H (s.writes (m.updates.take j)) em →
          Spec.NoCollision H (Spec.treeStrings H em ++ Spec.updateStrings H P k)) ∧
      FairMsgs H checked (s.writes m.updates) ms

end Jmt
