import Verif.Props.Work
import Verif.Model.Restore
import Verif.Props.Vectors
/-!
# The unit tests of the project, replayed on the model

Tests, not proofs: they compare the model with what the real code is tested to do (src/tests/jellyfish_merkle.rs,
src/tests/update_proof.rs, src/tests/tree_cache.rs).  The hasher is the toy hasher of the samples.  Where a test of the project commits
several writes at once and then counts nodes, either the nodes of the returned batch are counted here, or the writes are committed one
per version.
-/
namespace Jmt.Conformance
open Sample (okAnd)

/-- src/tests/jellyfish_merkle.rs:30-39 `update_nibble`. -/
def setNibble (l : List UInt8) (n : Nat) (x : UInt8) : List UInt8 :=
  l.mapIdx fun i (b : UInt8) =>
    if i = n / 2 then (if n % 2 = 0 then (b &&& (0x0f : UInt8)) ||| (x <<< (4 : UInt8)) else (b &&& (0xf0 : UInt8)) ||| x) else b

def updateNibble (k : KeyHash) (n : Nat) (x : UInt8) : KeyHash := ⟨setNibble k.val n x, by simp [setNibble, k.2]⟩

def rep (b : UInt8) : KeyHash := ⟨List.replicate 32 b, by simp⟩
def key1 : KeyHash := rep 0

abbrev T : Hasher := Sample.T

/-- One commit of `sets` at `version`, written to the store. -/
def commit (s : Store) (sets : List ValueSet) (version : Version) : Except Err Store := do
  let (_, b) ← putValueSets T s.reader sets version
  s.writeTreeUpdateBatch b

def commitBatch (s : Store) (set : List (KeyHash × Value)) (version : Version) : Except Err (Nat × Store) := do
  let (_, b) ← batchPutValueSets T s.reader [set] none version
  .ok (b.staleNodeIndexBatch.length, ← s.writeTreeUpdateBatch b)

def got (x : Except Err (Option Value)) (v : Option Value) : Bool := okAnd x (· == v)

/-- What is stored under a key, compared with a leaf. -/
def leafAt (s : Store) (k : NodeKey) (key : KeyHash) (v : Value) : Bool :=
  match s.nodes.get? k with
  | some (.leaf l) => l.keyHash == key && l.valueHash == T.hash v
  | _ => false

/-- The children stored under a key: nibble, version, and whether it is a leaf. -/
def childrenAt (s : Store) (k : NodeKey) (cs : List (Nat × Nat × Bool)) : Bool :=
  match s.nodes.get? k with
  | some (.internal n) => n.children.iter.map (fun (i, c) => (i.val, c.version, c.isLeaf)) == cs
  | _ => false

/-- src/tests/jellyfish_merkle.rs:127-152 `test_insert_to_empty_tree`. -/
example : okAnd (do
    let (stale, s) ← commitBatch (Store.new false) [(T.hash [1, 2, 3], [1, 2, 3, 4])] 0
    let v ← get s.reader (T.hash [1, 2, 3]) 0
    .ok (stale, v)) (· == (0, some [1, 2, 3, 4])) = true := by decide +kernel

/-- src/tests/jellyfish_merkle.rs:154-224 `test_insert_at_leaf_with_internal_created`. -/
example : okAnd (do
    let key2 := updateNibble key1 0 15
    let (stale0, s0) ← commitBatch (Store.new false) [(key1, [1, 2])] 0
    let (stale1, s) ← commitBatch s0 [(key2, [3, 4])] 1
    .ok (stale0 == 0 && got (get s0.reader key1 0) (some [1, 2]) && stale1 == 1 &&
      got (get s.reader key1 0) (some [1, 2]) && got (get s.reader key2 0) none &&
      got (get s.reader key2 1) (some [3, 4]) && s.numNodes == 4 &&
      leafAt s (NodeKey.root 0) key1 [1, 2] && leafAt s ⟨1, [0]⟩ key1 [1, 2] && leafAt s ⟨1, [15]⟩ key2 [3, 4] &&
      childrenAt s (NodeKey.root 1) [(0, 1, true), (15, 1, true)])) id = true := by decide +kernel

/-- src/tests/jellyfish_merkle.rs:226-341 `test_insert_at_leaf_with_multiple_internals_created`. -/
example : okAnd (do
    let key2 := updateNibble key1 1 1
    let (_, s) ← commitBatch (Store.new false) [(key1, [1, 2])] 0
    let (_, s1) ← commitBatch s [(key2, [3, 4])] 1
    let (_, s2) ← commitBatch s1 [(key2, [5, 6])] 2
    let p1 ← s2.purgeStaleNodes 1
    let p2 ← p1.purgeStaleNodes 2
    .ok (s1.numNodes == 5 && got (get s1.reader key2 0) none && got (get s1.reader key2 1) (some [3, 4]) &&
      leafAt s1 (NodeKey.root 0) key1 [1, 2] && leafAt s1 ⟨1, [0, 0]⟩ key1 [1, 2] && leafAt s1 ⟨1, [0, 1]⟩ key2 [3, 4] &&
      childrenAt s1 ⟨1, [0]⟩ [(0, 1, true), (1, 1, true)] && childrenAt s1 (NodeKey.root 1) [(0, 1, false)] &&
      got (get s2.reader key2 0) none && got (get s2.reader key2 1) (some [3, 4]) && got (get s2.reader key2 2) (some [5, 6]) &&
      s2.numNodes == 8 && p1.numNodes == 7 && p2.numNodes == 4 &&
      got (get p2.reader key1 2) (some [1, 2]) && got (get p2.reader key2 2) (some [5, 6]))) id = true := by decide +kernel

/-- The writes of src/tests/jellyfish_merkle.rs:343-383 `test_batch_insertion`, one per set. -/
def insertions : List ValueSet :=
  [[(key1, some [1])], [(updateNibble key1 0 2, some [2])], [(updateNibble key1 1 3, some [3])],
   [(updateNibble key1 1 4, some [4])], [(updateNibble key1 5 5, some [5])], [(updateNibble key1 3 6, some [6])],
   [(updateNibble key1 0 2, some [22])]]

/-- src/tests/jellyfish_merkle.rs:397-408: as one batch, 12 nodes. -/
example : okAnd (putValueSets T (Store.new false).reader [insertions.flatten] 0)
    (fun r => r.2.nodeBatch.nodes.length == 12) = true := by decide +kernel

/-- src/tests/jellyfish_merkle.rs:410-419: as seven sets, 26 nodes. -/
example : okAnd (putValueSets T (Store.new false).reader insertions 0)
    (fun r => r.2.nodeBatch.nodes.length == 26) = true := by decide +kernel

/-- Commit the sets one by one, from version `v` on. -/
def commitEach : List ValueSet → Version → Store → Except Err Store
  | [], _, s => .ok s
  | set :: rest, v, s => do commitEach rest (v + 1) (← commit s [set] v)

/-- Purge the versions one by one and count the nodes. -/
def purgeEach : List Version → Store → Except Err (List Nat × Store)
  | [], s => .ok ([], s)
  | v :: rest, s => do
    let s ← s.purgeStaleNodes v
    let (ns, s') ← purgeEach rest s
    .ok (s.numNodes :: ns, s')

/-- src/tests/jellyfish_merkle.rs:417-509: 26 nodes, and 25, 23, 21, 18, 14, 12 as versions 1 to 6 are purged; the values
are still there. -/
example : okAnd (do
    let s ← commitEach insertions 0 (Store.new false)
    let (ns, s') ← purgeEach [1, 2, 3, 4, 5, 6] s
    .ok (s.numNodes == 26 && ns == [25, 23, 21, 18, 14, 12] &&
      (insertions.flatten.eraseIdx 1).all fun (k, v) => got (get s'.reader k 6) v)) id = true := by decide +kernel

/-- src/tests/jellyfish_merkle.rs:511-590 `test_non_existence`: 6 nodes, and three keys that are not there. -/
example : okAnd (batchPutValueSets T (Store.new false).reader
    [[(key1, [1]), (updateNibble key1 0 15, [2]), (updateNibble key1 2 3, [3])]] none 0)
    (fun r => r.2.nodeBatch.nodes.length == 6) = true := by decide +kernel

example : okAnd (do
    let s ← commitEach [[(key1, some [1])], [(updateNibble key1 0 15, some [2])], [(updateNibble key1 2 3, some [3])]] 0 (Store.new false)
    let root ← getRootHash T s.reader 2
    .ok ([updateNibble key1 0 1, updateNibble key1 1 15, updateNibble key1 2 4].all fun k =>
      okAnd (do
        let (v, P) ← getWithProof T s.reader k 2
        P.verifyNonexistence T root k
        .ok v.isNone) id)) id = true := by decide +kernel

/-- src/tests/jellyfish_merkle.rs:592-602 `test_missing_root`. -/
example : (match getWithProof T (Store.new false).reader (T.hash [1]) 0 with
    | .error (.missingRoot v) => v == 0
    | _ => false) = true := by decide +kernel

/-- src/tests/jellyfish_merkle.rs:604-611 `test_non_batch_empty_write_set`. -/
example : okAnd (do
    let s ← commit (Store.new false) [[]] 0
    getRootHash T s.reader 0) (· == placeholder) = true := by decide +kernel

/-- src/tests/jellyfish_merkle.rs:738-755 `test_delete_then_get_in_one`. -/
example : okAnd (putValueSets T (Store.new false).reader [[(rep 1, none), (rep 2, some [])]] 0)
    (fun r => r.2.nodeBatch.nodes.length == 1) = true := by decide +kernel

/-- src/tests/jellyfish_merkle.rs:757-777 `test_two_gets_then_delete`: version 0 is committed twice. -/
example : okAnd (do
    let s ← commit (Store.new false) [[(rep 1, some []), (rep 1, some [])]] 0
    commit s [[(rep 1, none)]] 0) (fun _ => true) = true := by decide +kernel

/-! ### src/tests/update_proof.rs -/

/-- src/tests/update_proof.rs:31-47 `insert_and_perform_checks`, up to the write to the store. -/
def insertAndCheck (batches : List ValueSet) : Bool :=
  okAnd (do
    let (root, Ps, _) ← putValueSetWithProof T (Store.new false).reader batches.flatten 0
    SMProof.verifyUpdate T true Ps placeholder root batches.flatten) (fun _ => true)

/-- Verify a sequence of update proofs, each from the root of the one before. -/
def verifyEach : List (Digest × List SMProof) → List ValueSet → Digest → Except Err Unit
  | (root, Ps) :: rest, set :: sets, old => do
    SMProof.verifyUpdate T true Ps old root set
    verifyEach rest sets root
  | _, _, _ => .ok ()

/-- src/tests/update_proof.rs:50-107 `test_update_proof`. -/
example : okAnd (do
    let sets : List ValueSet := [[(key1, some [1])], [(updateNibble key1 0 15, some [2])], [(updateNibble key1 2 3, some [3])]]
    let (rs, b) ← putValueSetsWithProof T (Store.new false).reader sets 0
    verifyEach rs sets placeholder
    .ok (rs.length, b.nodeBatch.nodes.length)) (· == (3, 9)) = true := by decide +kernel

def k2 : KeyHash := updateNibble key1 0 2
def k3 : KeyHash := updateNibble key1 1 3
def k4 : KeyHash := updateNibble key1 1 4
def k5 : KeyHash := updateNibble key1 5 5
def k6 : KeyHash := updateNibble key1 3 6

/-- src/tests/update_proof.rs:109-136 `test_prove_multiple_insertions`. -/
example : insertAndCheck [[(key1, some [1])], [(k2, some [2])], [(k3, some [3])]] = true := by decide +kernel

/-- src/tests/update_proof.rs:138-188 `test_prove_complex_insertion`. -/
example : insertAndCheck [[(key1, some [1])], [(k2, some [2])], [(k3, some [3])], [(k4, some [4])], [(k5, some [5])],
    [(k6, some [6])]] = true := by decide +kernel

/-- src/tests/update_proof.rs:190-224 `test_prove_insertion_separate`. -/
example : insertAndCheck [[(key1, some [1]), (k2, some [2]), (k3, some [3])]] = true ∧
    insertAndCheck [[(k4, some [4])]] = true := by decide +kernel

/-- src/tests/update_proof.rs:225-281 `test_prove_update`. -/
example : insertAndCheck [[(key1, some [1])], [(k2, some [2])], [(k3, some [3])], [(k4, some [4])], [(k5, some [5])],
    [(k4, some [20])], [(k6, some [6])], [(k2, some [22])], [(k6, some [10])]] = true := by decide +kernel

/-- src/tests/update_proof.rs:283-306 `test_delete_simple`. -/
example : insertAndCheck [[(key1, some [1])], [(k2, some [2])], [(k2, none)]] = true := by decide +kernel

/-- src/tests/update_proof.rs:308-339 `test_delete_simple2`. -/
example : insertAndCheck [[(key1, some [1])], [(k2, some [2])], [(k3, some [3])], [(k4, some [4])], [(k4, none)]] = true := by
  decide +kernel

/-- src/tests/update_proof.rs:341-396 `test_delete_complex`. -/
example : insertAndCheck [[(key1, some [1])], [(k2, some [2])], [(k3, some [3])], [(k4, some [4])], [(k5, some [5])], [(k4, none)],
    [(k6, some [6])], [(k2, none)], [(k6, none)], [(k5, none)], [(k3, none)], [(key1, none)]] = true := by decide +kernel

/-- src/tests/update_proof.rs:398-406 `test_delete_empty`. -/
example : insertAndCheck [[(key1, none)]] = true := by decide +kernel

/-- src/tests/update_proof.rs:408-422 `test_delete_key_twice`. -/
example : insertAndCheck [[(rep 10, some [10])], [(rep 10, none)], [(rep 10, none)], [(rep 10, some [10])], [(rep 10, none)]] = true := by
  decide +kernel

/-- src/tests/update_proof.rs:424-452 `test_delete_with_internal_sibling`. -/
example : insertAndCheck [[(rep 176, some [2])],
    [(rep 160, some [1]), (updateNibble (updateNibble (rep 160) 2 1) 3 0, some [1])], [(rep 176, none)]] = true := by decide +kernel

/-- src/tests/update_proof.rs:454-463 `test_multi_deletes_after_inserts`. -/
example : insertAndCheck [[(rep 7, some [10]), (rep 10, some [10]), (rep 10, none), (rep 10, none)]] = true := by decide +kernel

/-- src/tests/update_proof.rs:465-494 `test_gets_then_delete_with_proof`. -/
example : okAnd (do
    let sets : List ValueSet := [[(rep 1, some [])], [(rep 1, none)]]
    let (rs, b) ← putValueSetsWithProof T (Store.new false).reader sets 0
    verifyEach rs sets placeholder
    .ok (rs.length, b.nodeBatch.nodes.length)) (fun x => x.1 == 2) = true := by decide +kernel

/-! ### src/tests/tree_cache.rs -/

/-- src/tests/tree_cache.rs:69-96 `test_freeze_with_delete`. -/
example : okAnd (do
    let tc ← TreeCache.new (Store.new false).reader 0
    let n1 : NodeKey := ⟨0, (rep 1).nibbles⟩
    let n2 : NodeKey := ⟨0, (rep 2).nibbles⟩
    let tc ← tc.putNode n1 (.leaf ⟨rep 1, T.hash [1]⟩)
    let tc ← tc.putNode n2 (.leaf ⟨rep 2, T.hash [2]⟩)
    let _ ← tc.getNode n1
    let tc ← tc.freeze T
    let _ ← tc.getNode n1
    let _ ← tc.getNode n2
    let tc ← tc.deleteNode n1 true
    let tc ← tc.freeze T
    .ok (tc.finish.2.nodeBatch.nodes.length, tc.finish.2.staleNodeIndexBatch.length)) (· == (3, 1)) = true := by decide +kernel

/-! ### src/tests/iterator.rs -/

/-- The pairs an iterator yields (at most `n`), or the first error. -/
def collect (R : Reader) : Nat → Iter → Except Err (List (KeyHash × Value))
  | 0, _ => .ok []
  | n + 1, it => do
    match ← it.next R with
    | (none, _) => .ok []
    | (some (.error e), _) => .error e
    | (some (.ok p), it) => .ok (p :: (← collect R n it))

def collectFrom (s : Store) (v : Version) (k : KeyHash) : Except Err (List (KeyHash × Value)) := do
  collect s.reader 50 (← Iter.new s.reader v k)

def collectByIndex (s : Store) (v : Version) (i : Nat) : Except Err (List (KeyHash × Value)) := do
  collect s.reader 50 (← Iter.newByIndex s.reader v i)

/-- src/tests/helper.rs:35-48 `plus_one`. -/
def plusOne (k : KeyHash) : KeyHash :=
  let carry (b : UInt8) (acc : List UInt8 × Bool) : List UInt8 × Bool :=
    if acc.2 then ((b + 1) :: acc.1, b == 255) else (b :: acc.1, false)
  let r := (k.val.foldr carry ([], true)).1
  if h : r.length = 32 then ⟨r, h⟩ else k

/-- src/tests/iterator.rs:100-151 `run_tests`; `pairs` ascending. -/
def runTests (s : Store) (pairs : List (KeyHash × Value)) (v : Version) : Bool :=
  okAnd (collectFrom s v (rep 0)) (· == pairs) &&
  ((List.range pairs.length).all fun i =>
    okAnd (collectByIndex s v i) (· == pairs.drop i) &&
    match pairs[i]? with
    | none => false
    | some (k, _) => okAnd (collectFrom s v k) (· == pairs.drop i) &&
        okAnd (collectFrom s v (plusOne k)) (· == pairs.drop (i + 1))) &&
  okAnd (collectByIndex s v pairs.length) (· == []) &&
  okAnd (collectFrom s v (rep 0xff)) (· == [])

/-- The entries of a list of key-value pairs, ascending by key. -/
def insertPair (p : KeyHash × Value) : List (KeyHash × Value) → List (KeyHash × Value)
  | [] => [p]
  | q :: l => if p.1.val < q.1.val then p :: q :: l else q :: insertPair p l

/-- src/tests/iterator.rs:58-74 `test_n_leaves_multiple_versions`: after every commit of one more pair. -/
def runEach : List (KeyHash × Value) → Version → List (KeyHash × Value) → Store → Except Err Bool
  | [], _, _, _ => .ok true
  | (k, x) :: rest, v, pairs, s => do
    let s ← commit s [[(k, some x)]] v
    let pairs := insertPair (k, x) pairs
    let b ← runEach rest (v + 1) pairs s
    .ok (runTests s pairs v && b)

example : okAnd (runEach [(rep 0x31, [1]), (rep 0x35, [2]), (updateNibble (rep 0x31) 7 9, [3]),
    (rep 0xe0, [5])] 0 [] (Store.new false)) id = true := by decide +kernel

/-- src/tests/iterator.rs:76-98 `test_n_consecutive_addresses`, one address per version (here the addresses share nine nibbles). -/
def address (i : UInt8) : KeyHash := ⟨List.replicate 4 0 ++ i :: List.replicate 27 0, by simp⟩

example : okAnd (runEach [(address 1, [1]), (address 0, [2])] 0 [] (Store.new false))
    id = true := by decide +kernel

/-! ### src/tests/restore.rs -/

/-- src/tests/restore.rs:159-196 `restore_without_interruption`: one pair per chunk. -/
def addEach (source : Store) (v : Version) : List (KeyHash × Value) → Restore → Store → Except Err (Restore × Store)
  | [], r, s => .ok (r, s)
  | (k, x) :: rest, r, s => do
    let P ← getRangeProof T source.reader k v
    match r.addChunk T true s [(k, x)] P with
    | (_, _, .error e) => .error e
    | (r, s, .ok ()) => addEach source v rest r s

/-- src/tests/restore.rs:147-157 `assert_success`. -/
def success (s : Store) (root : Digest) (pairs : List (KeyHash × Value)) (v : Version) : Bool :=
  pairs.all (fun (k, x) => got (get s.reader k v) (some x)) && okAnd (getRootHash T s.reader v) (· == root)

def pairs : List (KeyHash × Value) :=
  [(rep 0x07, [4]), (rep 0x31, [1]), (updateNibble (rep 0x31) 7 9, [3]), (rep 0x35, [2]), (rep 0xe0, [5])]

example : okAnd (do
    let source ← commitEach (pairs.map fun (k, x) => [(k, some x)]) 0 (Store.new false)
    let root ← getRootHash T source.reader 4
    let r ← Restore.new T (Store.new false).reader 7 root
    let (r, s) ← addEach source 4 pairs r (Store.new false)
    let s ← r.finish T s
    .ok (success s root pairs 7)) id = true := by decide +kernel

/-- src/tests/restore.rs:18-68 `test_restore_with_interruption`: three chunks, then a new receiver on the same store. -/
example : okAnd (do
    let source ← commitEach (pairs.map fun (k, x) => [(k, some x)]) 0 (Store.new false)
    let root ← getRootHash T source.reader 4
    let r ← Restore.new T (Store.new false).reader 7 root
    let (_, s) ← addEach source 4 (pairs.take 3) r (Store.new false)
    match s.getRightmostLeaf with
    | none => .ok false
    | some (_, l) =>
      let r ← Restore.new T s.reader 7 root
      let (r, s) ← addEach source 4 (pairs.filter fun p => decide (l.keyHash.val < p.1.val)) r s
      let s ← r.finish T s
      .ok (success s root pairs 7)) id = true := by decide +kernel

end Jmt.Conformance
