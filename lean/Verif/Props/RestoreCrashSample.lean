import Verif.Props.RestoreCrash
import Verif.Props.Stale
import Verif.Props.Faults
/-!
# C54: concrete cases, and what goes wrong in another order
-/
namespace Jmt
open Spec (Entry chunkBatch PartOf LeftToRight NodesFirst CrashRun)
open Store

namespace Sample

/-- Four versions that each add a key. -/
def crashOps : List Op :=
  [.commit [[(key 0x10, some [4])]], .commit [[(key 0x80, some [3])]], .commit [[(key 0x1f, some [2])]], .commit [[(key 0x90, some [5])]]]

def pairs2 : List (KeyHash × Value) := [(key 0x10, [4]), (key 0x80, [3])]
def pairs3 : List (KeyHash × Value) := [(key 0x10, [4]), (key 0x1f, [2]), (key 0x80, [3])]
def pairs4 : List (KeyHash × Value) := [(key 0x10, [4]), (key 0x1f, [2]), (key 0x80, [3]), (key 0x90, [5])]

/-- The order of node keys of one version. -/
def shallower (q p : List Nibble) : Prop := q.length < p.length ∨ q.length = p.length ∧ q < p

instance (q p : List Nibble) : Decidable (shallower q p) := by unfold shallower; infer_instance

/-- Is the selection one that storing the nodes first, in the order of their keys, can leave? -/
def fine (batch : NodeBatch) (sel : NodeKey → Bool) : Bool :=
  decide (batch.nodes.map Prod.fst).Nodup &&
    batch.nodes.all (fun a => batch.nodes.all (fun b => !sel a.1 || !decide (shallower b.1.path a.1.path) || sel b.1))

theorem of_fine {batch : NodeBatch} {sel : NodeKey → Bool} (h : fine batch sel = true) :
    PartOf ⟨batch.nodes.filter (fun e => sel e.1), []⟩ batch ∧ NodesFirst batch ⟨batch.nodes.filter (fun e => sel e.1), []⟩ := by
  unfold fine at h
  simp only [Bool.and_eq_true, decide_eq_true_eq, List.all_eq_true, Bool.or_eq_true, Bool.not_eq_true'] at h
  refine ⟨⟨h.1.sublist (List.filter_sublist.map _), List.nodup_nil, fun e he => (List.mem_filter.1 he).1, fun e he => by cases he⟩,
    Or.inl rfl, fun a ha b hb hab => ?_⟩
  obtain ⟨ha, hs⟩ := List.mem_filter.1 ha
  refine List.mem_filter.2 ⟨hb, ?_⟩
  rcases h.2 a ha b hb with (h1 | h1) | h1
  · rw [hs] at h1; cases h1
  · exact absurd hab (of_decide_eq_false h1)
  · exact h1

/-- An interrupted write: the next `n + 1` pairs are sent, and of the batch the store holds the nodes for which `sel` holds, and no value. -/
def cutAt (src : Reader) (v : Version) (all : List (KeyHash × Value)) (root : Digest) (n : Nat) (sel : List Nibble → Bool) (z : Sess) :
    Except Err Sess :=
  match ((Spec.above all z.pos).take (n + 1)).getLast? with
  | none => .error (.bail "")
  | some (k, _) => do
    let P ← getRangeProof T src k v
    let batch ← chunkBatch T true z.receiver ((Spec.above all z.pos).take (n + 1)) P
    let part : NodeBatch := ⟨batch.nodes.filter (fun e => sel e.1.path), []⟩
    if fine batch (fun k => sel k.path) = false then .error (.bail "") else
    let s' ← z.store.writeNodeBatch part
    let r ← Restore.new T s'.reader 5 root
    .ok ⟨r, s', s'.getRightmostLeaf.map (fun l => l.2.keyHash)⟩

theorem cutAt_run {ow : Bool} {src : Reader} {v : Version} {all : List (KeyHash × Value)} {root : Digest} {n : Nat} {sel : List Nibble → Bool} {z z' : Sess}
    (hz : CrashRun T true ow src v all 5 root NodesFirst z) (h : cutAt src v all root n sel z = .ok z') :
    CrashRun T true ow src v all 5 root NodesFirst z' := by
  unfold cutAt at h
  split at h
  · cases h
  · next k x hl =>
    obtain ⟨P, h1, h⟩ := bind_ok_inv h
    obtain ⟨batch, h2, h⟩ := bind_ok_inv h
    simp only [] at h
    split at h
    · cases h
    · next hn =>
      have hn := of_fine (Bool.of_not_eq_false hn)
      obtain ⟨s', h3, h⟩ := bind_ok_inv h
      obtain ⟨r, h4, h⟩ := bind_ok_inv h
      cases h
      exact CrashRun.cut n hz hl h1 h2 hn.1 hn.2 h3 h4

/-- Everything that is evaluated: the history up to `v`, what `prog` does with the source and its root. -/
def crashCheck (v : Version) (prog : Reader → Digest → Bool) : Bool :=
  check crashOps (fun s => okAnd (getRootHash T s.reader v) (prog s.reader))

/-- A map written pair by pair at different keys. -/
theorem writes_mem : ∀ (l : List (KeyHash × Value)) (m : Spec.Map) (_ : (l.map Prod.fst).Nodup) (_ : ∀ e ∈ l, m e.1 = none) (k : KeyHash) (x : Value),
    (l.foldl (fun m e => Spec.Map.write m (e.1, some e.2)) m) k = some x ↔ (k, x) ∈ l ∨ m k = some x
  | [], _, _, _, k, x => by simp
  | (a, b) :: l, m, hnd, hm, k, x => by
    rw [List.map_cons, List.nodup_cons] at hnd
    have hma : m a = none := hm (a, b) List.mem_cons_self
    have hne : ∀ e ∈ l, e.1 ≠ a := fun e he hc => hnd.1 (List.mem_map.2 ⟨e, he, hc⟩)
    rw [List.foldl_cons, writes_mem l _ hnd.2 (fun e he => by
      show (if e.1 = a then some b else m e.1) = none
      rw [if_neg (hne e he)]
      exact hm e (List.mem_cons_of_mem _ he)) k x]
    show _ ∨ (if k = a then some b else m k) = some x ↔ _
    rw [List.mem_cons]
    by_cases hk : k = a
    · subst hk
      rw [if_pos rfl, hma]
      simp [eq_comm, or_comm]
    · rw [if_neg hk]
      simp [hk]

theorem sortedC2 : SortedPairs (mapAt crashOps 1) pairs2 :=
  ⟨by decide, fun k x => by
    have := writes_mem [(key 0x10, [4]), (key 0x80, [3])] Spec.Map.empty (by decide) (fun e _ => rfl) k x
    rw [show mapAt crashOps 1 k = some x ↔ _ from this]
    simp [pairs2, Spec.Map.empty]⟩

theorem sortedC3 : SortedPairs (mapAt crashOps 2) pairs3 :=
  ⟨by decide, fun k x => by
    have := writes_mem [(key 0x10, [4]), (key 0x80, [3]), (key 0x1f, [2])] Spec.Map.empty (by decide) (fun e _ => rfl) k x
    rw [show mapAt crashOps 2 k = some x ↔ _ from this]
    simp [pairs3, Spec.Map.empty, or_comm]⟩

theorem sortedC4 : SortedPairs (mapAt crashOps 3) pairs4 :=
  ⟨by decide, fun k x => by
    have := writes_mem [(key 0x10, [4]), (key 0x80, [3]), (key 0x1f, [2]), (key 0x90, [5])] Spec.Map.empty (by decide) (fun e _ => rfl) k x
    rw [show mapAt crashOps 3 k = some x ↔ _ from this]
    simp [pairs4, Spec.Map.empty, or_left_comm]⟩

theorem readableC (v : Version) (h : v < 4) : Readable crashOps v := by
  match v, h with
  | 0, _ => constructor <;> decide
  | 1, _ => constructor <;> decide
  | 2, _ => constructor <;> decide
  | 3, _ => constructor <;> decide

/-- Did the call return no value because of an error? -/
def erred {α : Type} : Except Err α → Bool
  | .error _ => true
  | .ok _ => false

end Sample

namespace Sample
/-- Two pairs are sent, the process ends after the nodes have been stored and before the values. -/
def lostValue (s : Store) : Bool :=
  okAnd (getRootHash T s.reader 1) fun root =>
  okAnd (cutAt s.reader 1 pairs2 root 1 (fun _ => true) (Sess.start false 5 root)) fun z =>
  okAnd (Sess.run T true s.reader 1 pairs2 5 root z [.feed 0]) fun z' =>
  okAnd (z'.receiver.finish T z'.store) fun s' =>
  okAnd (getRootHash T s'.reader 5) (fun root' => decide (root' = root)) &&
  okAnd (get s'.reader (key 0x10) 5) (fun x => decide (x = none)) && erred (getWithProof T s'.reader (key 0x10) 5)

/-- Four pairs are sent, the process ends after the two shallowest nodes of the batch have been stored. -/
def lostLeaves (s : Store) : Bool :=
  okAnd (getRootHash T s.reader 3) fun root =>
  okAnd (cutAt s.reader 3 pairs4 root 3 (fun p => decide (p.length ≤ 1)) (Sess.start false 5 root)) fun z =>
  okAnd (Sess.run T true s.reader 3 pairs4 5 root z [.feed 0]) fun z' =>
  okAnd (z'.receiver.finish T z'.store) fun s' =>
  okAnd (getRootHash T s'.reader 5) (fun root' => decide (root' = root)) && erred (getWithProof T s'.reader (key 0x10) 5)

/-- Three pairs are sent one by one, the process ends inside the third write. -/
def stuck (s : Store) : Bool :=
  okAnd (getRootHash T s.reader 2) fun root =>
  okAnd (Sess.run T true s.reader 2 pairs3 5 root (Sess.start false 5 root) [.feed 0, .feed 0]) fun z =>
  okAnd (cutAt s.reader 2 pairs3 root 0 (fun p => decide (p.length ≤ 1)) z) fun z' =>
  panicked (z'.step T true s.reader 2 pairs3 5 root (.feed 0)) && panicked (z'.step T true s.reader 2 pairs3 5 root (.feed 1)) &&
  decide ((Spec.above pairs3 z'.pos).length ≤ 2) && decide (z'.store.getRightmostLeaf.isSome)

theorem of_erred {α : Type} {x : Except Err α} (h : erred x = true) : ∃ e, x = .error e := by
  cases x with
  | ok a => cases h
  | error e => exact ⟨e, rfl⟩

theorem feed_short {src : Reader} {v : Version} {all : List (KeyHash × Value)} {root : Digest} {z : Sess} (h : (Spec.above all z.pos).length ≤ 2) (n : Nat) :
    z.step T true src v all 5 root (.feed (n + 1)) = z.step T true src v all 5 root (.feed 1) := by
  unfold Sess.step
  simp only []
  rw [List.take_of_length_le (by omega : (Spec.above all z.pos).length ≤ n + 1 + 1), List.take_of_length_le (by omega : (Spec.above all z.pos).length ≤ 1 + 1)]

end Sample

/-- C54 is false of `MockTreeStore` (1): the process ends after the nodes of a chunk and before its values; the sender continues above the
rightmost leaf, everything is accepted, `finish` succeeds, the root hash is the expected one, but a pair of the map has no value any more. -/
theorem C54_values_lost_silently : ∃ y root z z' s', Reached Sample.T Sample.crashOps y ∧ Readable Sample.crashOps 1 ∧
    SortedPairs (mapAt Sample.crashOps 1) Sample.pairs2 ∧ getRootHash Sample.T y.store.reader 1 = .ok root ∧
    CrashRun Sample.T true false y.store.reader 1 Sample.pairs2 5 root NodesFirst z ∧
    Sess.run Sample.T true y.store.reader 1 Sample.pairs2 5 root z [.feed 0] = .ok z' ∧
    z'.receiver.finish Sample.T z'.store = .ok s' ∧ getRootHash Sample.T s'.reader 5 = .ok root ∧
    get s'.reader (Sample.key 0x10) 5 = .ok none ∧ ∃ e, getWithProof Sample.T s'.reader (Sample.key 0x10) 5 = .error e := by
  have h : Sample.check Sample.crashOps Sample.lostValue = true := by decide +kernel
  obtain ⟨y, hy, h⟩ := Sample.of_check h
  obtain ⟨root, h1, h⟩ := Sample.of_okAnd h
  obtain ⟨z, h2, h⟩ := Sample.of_okAnd h
  obtain ⟨z', h3, h⟩ := Sample.of_okAnd h
  obtain ⟨s', h4, h⟩ := Sample.of_okAnd h
  rw [Bool.and_eq_true, Bool.and_eq_true] at h
  obtain ⟨r', h5, h5'⟩ := Sample.of_okAnd h.1.1
  obtain ⟨x, h6, h6'⟩ := Sample.of_okAnd h.1.2
  obtain rfl := of_decide_eq_true h5'
  obtain rfl := of_decide_eq_true h6'
  exact ⟨y, _, z, z', s', hy, Sample.readableC 1 (by decide), Sample.sortedC2, h1, Sample.cutAt_run .start h2, h3, h4, h5, h6, Sample.of_erred h.2⟩

/-- C54 is false of `MockTreeStore` (2): it writes shorter paths first; a process that ends in between leaves an internal node without its
leaves.  The restoration continues, `finish` succeeds with the expected root hash, and the keys below that node cannot be read. -/
theorem C54_leaves_lost_silently : ∃ y root z z' s', Reached Sample.T Sample.crashOps y ∧ Readable Sample.crashOps 3 ∧
    SortedPairs (mapAt Sample.crashOps 3) Sample.pairs4 ∧ getRootHash Sample.T y.store.reader 3 = .ok root ∧
    CrashRun Sample.T true false y.store.reader 3 Sample.pairs4 5 root NodesFirst z ∧
    Sess.run Sample.T true y.store.reader 3 Sample.pairs4 5 root z [.feed 0] = .ok z' ∧
    z'.receiver.finish Sample.T z'.store = .ok s' ∧ getRootHash Sample.T s'.reader 5 = .ok root ∧
    ∃ e, getWithProof Sample.T s'.reader (Sample.key 0x10) 5 = .error e := by
  have h : Sample.check Sample.crashOps Sample.lostLeaves = true := by decide +kernel
  obtain ⟨y, hy, h⟩ := Sample.of_check h
  obtain ⟨root, h1, h⟩ := Sample.of_okAnd h
  obtain ⟨z, h2, h⟩ := Sample.of_okAnd h
  obtain ⟨z', h3, h⟩ := Sample.of_okAnd h
  obtain ⟨s', h4, h⟩ := Sample.of_okAnd h
  rw [Bool.and_eq_true] at h
  obtain ⟨r', h5, h5'⟩ := Sample.of_okAnd h.1
  obtain rfl := of_decide_eq_true h5'
  exact ⟨y, _, z, z', s', hy, Sample.readableC 3 (by decide), Sample.sortedC4, h1, Sample.cutAt_run .start h2, h3, h4, h5, Sample.of_erred h.2⟩

/-- C54 is false of `MockTreeStore` (3): in the same way the restoration can get stuck: whatever number of pairs the sender continues with,
`add_chunk` panics. -/
theorem C54_restore_stuck : ∃ y root z, Reached Sample.T Sample.crashOps y ∧ Readable Sample.crashOps 2 ∧
    SortedPairs (mapAt Sample.crashOps 2) Sample.pairs3 ∧ getRootHash Sample.T y.store.reader 2 = .ok root ∧
    CrashRun Sample.T true false y.store.reader 2 Sample.pairs3 5 root NodesFirst z ∧
    ∀ n, ∃ m, z.step Sample.T true y.store.reader 2 Sample.pairs3 5 root (.feed n) = .error (.panic m) := by
  have h : Sample.check Sample.crashOps Sample.stuck = true := by decide +kernel
  obtain ⟨y, hy, h⟩ := Sample.of_check h
  obtain ⟨root, h1, h⟩ := Sample.of_okAnd h
  obtain ⟨z, h2, h⟩ := Sample.of_okAnd h
  obtain ⟨z', h3, h⟩ := Sample.of_okAnd h
  simp only [Bool.and_eq_true, decide_eq_true_eq] at h
  obtain ⟨⟨⟨p1, p2⟩, p3⟩, -⟩ := h
  have hz : CrashRun Sample.T true false y.store.reader 2 Sample.pairs3 5 root NodesFirst z := by
    unfold Sess.run at h2
    obtain ⟨z1, e1, h2⟩ := bind_ok_inv h2
    unfold Sess.run at h2
    obtain ⟨z2, e2, h2⟩ := bind_ok_inv h2
    cases h2
    exact .step _ (.step _ .start e1) e2
  refine ⟨y, _, z', hy, Sample.readableC 2 (by decide), Sample.sortedC3, h1, Sample.cutAt_run hz h3, fun n => ?_⟩
  match n with
  | 0 => exact Sample.of_panicked p1
  | n + 1 =>
    rw [Sample.feed_short p3]
    exact Sample.of_panicked p2

/-! ### The order in which it works -/

namespace Sample

def beforeB : List Nibble → List Nibble → Bool
  | _, [] => true
  | [], _ :: _ => false
  | i :: q, j :: p => decide (i < j) || decide (i = j) && beforeB q p

theorem of_before : ∀ (q p : List Nibble), Spec.Before q p → beforeB q p = true
  | _, [], _ => by unfold beforeB; rfl
  | [], j :: p, h => by
    rcases h with h | ⟨c, i, k, -, h, -⟩
    · exact absurd (List.prefix_nil.1 h) (by simp)
    · exact absurd (List.prefix_nil.1 h) (by simp)
  | i :: q, j :: p, h => by
    unfold beforeB
    rw [Bool.or_eq_true, Bool.and_eq_true, decide_eq_true_eq, decide_eq_true_eq]
    rcases h with h | ⟨c, a, b, hab, h1, h2⟩
    · obtain ⟨e, h⟩ := List.cons_prefix_cons.1 h
      exact Or.inr ⟨e.symm, of_before q p (Or.inl h)⟩
    · cases c with
      | nil =>
        obtain ⟨rfl, -⟩ := List.cons_prefix_cons.1 h1
        obtain ⟨rfl, -⟩ := List.cons_prefix_cons.1 h2
        exact Or.inl hab
      | cons x c =>
        obtain ⟨rfl, g1⟩ := List.cons_prefix_cons.1 h1
        obtain ⟨rfl, g2⟩ := List.cons_prefix_cons.1 h2
        exact Or.inr ⟨rfl, of_before q p (Or.inr ⟨c, a, b, hab, g1, g2⟩)⟩

/-- An interrupted write that has stored all values and the nodes for which `sel` holds. -/
def cutLR (src : Reader) (v : Version) (all : List (KeyHash × Value)) (root : Digest) (n : Nat) (sel : List Nibble → Bool) (z : Sess) :
    Except Err Sess :=
  match ((Spec.above all z.pos).take (n + 1)).getLast? with
  | none => .error (.bail "")
  | some (k, _) => do
    let P ← getRangeProof T src k v
    let batch ← chunkBatch T true z.receiver ((Spec.above all z.pos).take (n + 1)) P
    let part : NodeBatch := ⟨batch.nodes.filter (fun e => sel e.1.path), batch.values⟩
    if (decide (batch.nodes.map Prod.fst).Nodup && decide (batch.values.map Prod.fst).Nodup && batch.nodes.any (fun a => !sel a.1.path) &&
        batch.nodes.any (fun a => sel a.1.path) &&
        batch.nodes.all (fun a => batch.nodes.all (fun b => !sel a.1.path || !beforeB b.1.path a.1.path || sel b.1.path))) = false then
      .error (.bail "") else
    let s' ← z.store.writeNodeBatch part
    let r ← Restore.new T s'.reader 5 root
    .ok ⟨r, s', s'.getRightmostLeaf.map (fun l => l.2.keyHash)⟩

theorem cutLR_run {ow : Bool} {src : Reader} {v : Version} {all : List (KeyHash × Value)} {root : Digest} {n : Nat} {sel : List Nibble → Bool} {z z' : Sess}
    (hz : CrashRun T true ow src v all 5 root LeftToRight z) (h : cutLR src v all root n sel z = .ok z') :
    CrashRun T true ow src v all 5 root LeftToRight z' := by
  unfold cutLR at h
  split at h
  · cases h
  · next k x hl =>
    obtain ⟨P, h1, h⟩ := bind_ok_inv h
    obtain ⟨batch, h2, h⟩ := bind_ok_inv h
    simp only [] at h
    split at h
    · cases h
    · next hn =>
      have hn := Bool.of_not_eq_false hn
      simp only [Bool.and_eq_true, decide_eq_true_eq, List.all_eq_true, Bool.or_eq_true, Bool.not_eq_true'] at hn
      obtain ⟨⟨⟨⟨hn1, hn2⟩, -⟩, -⟩, hn3⟩ := hn
      obtain ⟨s', h3, h⟩ := bind_ok_inv h
      obtain ⟨r, h4, h⟩ := bind_ok_inv h
      cases h
      refine CrashRun.cut (part := ⟨batch.nodes.filter (fun e => sel e.1.path), batch.values⟩) n hz hl h1 h2 ⟨hn1.sublist (List.filter_sublist.map _), hn2, fun e he => (List.mem_filter.1 he).1, fun e he => he⟩
        ⟨Or.inr (fun e he => he), fun a ha b hb hab => ?_⟩ h3 h4
      obtain ⟨ha, hs⟩ := List.mem_filter.1 ha
      refine List.mem_filter.2 ⟨hb, ?_⟩
      rcases hn3 a ha b hb with (h1 | h1) | h1
      · rw [hs] at h1; cases h1
      · rw [of_before _ _ hab] at h1; cases h1
      · exact h1

/-- Two pairs are sent, then the write of the third ends between a leaf and its parent. -/
def survives (s : Store) : Bool :=
  okAnd (getRootHash T s.reader 2) fun root =>
  okAnd (Sess.run T true s.reader 2 pairs3 5 root (Sess.start false 5 root) [.feed 0, .feed 0]) fun z =>
  okAnd (cutLR s.reader 2 pairs3 root 0 (fun p => decide (p.length ≥ 2)) z) fun z' => z'.pos.isSome

end Sample

/-- C54: such a session: the write of the third chunk ends after the values and a leaf, before the parent of that leaf; the sender continues
with pairs above the leaf. -/
example : ∃ y root z z' s', Reached Sample.T Sample.crashOps y ∧ getRootHash Sample.T y.store.reader 2 = .ok root ∧
    CrashRun Sample.T true false y.store.reader 2 Sample.pairs3 5 root LeftToRight z ∧ z.pos.isSome ∧
    Sess.run Sample.T true y.store.reader 2 Sample.pairs3 5 root z [.feed 2] = .ok z' ∧
    z'.receiver.finish Sample.T z'.store = .ok s' ∧ SameQueries Sample.T s'.reader y.store.reader 5 2 := by
  have h : Sample.check Sample.crashOps Sample.survives = true := by decide +kernel
  obtain ⟨y, hy, h⟩ := Sample.of_check h
  obtain ⟨root, h1, h⟩ := Sample.of_okAnd h
  obtain ⟨z, h2, h⟩ := Sample.of_okAnd h
  obtain ⟨z', h3, h⟩ := Sample.of_okAnd h
  have hz : CrashRun Sample.T true false y.store.reader 2 Sample.pairs3 5 root LeftToRight z := by
    unfold Sess.run at h2
    obtain ⟨z1, e1, h2⟩ := bind_ok_inv h2
    unfold Sess.run at h2
    obtain ⟨z2, e2, h2⟩ := bind_ok_inv h2
    cases h2
    exact .step _ (.step _ .start e1) e2
  have hz' := Sample.cutLR_run hz h3
  obtain ⟨z'', s', h4, h5, h6, -⟩ := C54_interrupted_chunk_partial hy (by decide) (Sample.readableC 2 (by decide)) Sample.sortedC3 (by decide) h1
    Sample.noPlaceholder1 hz' [2] (by decide)
  exact ⟨y, root, z', z'', s', hy, h1, hz', h, h4, h5, h6⟩

end Jmt
