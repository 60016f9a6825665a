import Verif.Spec.Continue
import Verif.Spec.IterResume
import Verif.Spec.History
/-!
# Specification: a state sync between a live source and a receiver

The source goes on committing and pruning; the receiver reads one version `v` of it chunk by chunk through the iterator and
`get_range_proof`, and may be restarted.  The client code below uses the crate's interface only.
-/
namespace Jmt

/-- What may happen: the source performs an operation, the receiver fetches and adds the next `n + 1` pairs, or the receiver is restarted. -/
inductive SyncEvent where
  | source (op : Op)
  | feed (n : Nat)
  | restart

/-- The source, the receiver with its store, and the key up to which the receiver has fetched. -/
structure Sync where
  src : Sys
  receiver : Restore
  store : Store
  pos : Option KeyHash

/-- The pairs an iterator has returned, up to the end; the first error is an error. -/
def Sync.collect : List Iter.Item → Except Err (List (KeyHash × Value))
  | [] => .ok []
  | none :: _ => .ok []
  | some (.error e) :: _ => .error e
  | some (.ok kv) :: xs => do
    let l ← Sync.collect xs
    .ok (kv :: l)

/-- The first `n` pairs the iterator over version `v` returns from the key on (src/iterator.rs:124-189, 280-352). -/
def Sync.firstPairs (R : Reader) (v : Version) (start : KeyHash) (n : Nat) : Except Err (List (KeyHash × Value)) := do
  let it ← Iter.new R v start
  let (xs, _) ← Iter.calls (List.replicate n R) it
  Sync.collect xs

/-- Fetch at most `n` pairs beyond `pos`: from the lowest key, or from `pos`, skipping `pos` itself. -/
def Sync.fetch (R : Reader) (v : Version) (pos : Option KeyHash) (n : Nat) : Except Err (List (KeyHash × Value)) :=
  match pos with
  | none => Sync.firstPairs R v ⟨List.replicate 32 0, rfl⟩ n
  | some k => do
    let l ← Sync.firstPairs R v k (n + 1)
    .ok (l.drop 1)

/-- One event. An error of any call is an error of the step. -/
def Sync.step (H : Hasher) (checked : Bool) (v w : Version) (root : Digest) (y : Sync) : SyncEvent → Except Err Sync
  | .source op => do
    let src ← y.src.step H op
    .ok { y with src }
  | .restart => do
    let r ← Restore.new H y.store.reader w root
    .ok { y with receiver := r, pos := y.store.getRightmostLeaf.map (fun l => l.2.keyHash) }
  | .feed n => do
    let chunk ← Sync.fetch y.src.store.reader v y.pos (n + 1)
    match chunk.getLast? with
    | none => .ok y
    | some (k, _) => do
      let P ← getRangeProof H y.src.store.reader k v
      match y.receiver.addChunk H checked y.store chunk P with
      | (r, s, .ok ()) => .ok ⟨y.src, r, s, some k⟩
      | (_, _, .error e) => .error e

/-- A sequence of events. -/
def Sync.run (H : Hasher) (checked : Bool) (v w : Version) (root : Digest) : Sync → List SyncEvent → Except Err Sync
  | y, [] => .ok y
  | y, e :: es => do
    let y ← y.step H checked v w root e
    Sync.run H checked v w root y es

/-- The receiver starts with an empty store. -/
def Sync.start (src : Sys) (allowOverwrite : Bool) (w : Version) (root : Digest) : Sync :=
  ⟨src, Restore.newOverwrite w root, Store.new allowOverwrite, none⟩

/-- What the source did. -/
def Spec.sourceOps : List SyncEvent → List Op
  | [] => []
  | .source op :: es => op :: Spec.sourceOps es
  | _ :: es => Spec.sourceOps es

/-- How many pairs were asked for since the receiver was last restarted. -/
def Spec.asked : List SyncEvent → Nat := fun evs =>
  evs.foldl (fun a e => match e with | .feed n => a + (n + 1) | .restart => 0 | .source _ => a) 0

end Jmt
