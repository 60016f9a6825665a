import Verif.Props.RestoreFinish
import Verif.Props.Stale
import Verif.Props.Iterate
/-!
# C23-C26: concrete cases meeting the hypotheses, and what goes wrong otherwise
-/
namespace Jmt
open Spec (Preimage Entry)

namespace Sample

/-- The pairs of version 1 of the sample history. -/
def all1 : List (KeyHash × Value) := [(key 0x10, [4]), (key 0x1f, [2]), (key 0x80, [3])]

theorem sorted1 : SortedPairs (mapAt ops 1) all1 := by
  constructor
  · decide
  · intro k x
    have hm : mapAt ops 1 k = if k = key 0x10 then some [4] else if k = key 0x80 then some [3] else
        if k = key 0x1f then some [2] else none := by
      show Spec.Map.write (Spec.Map.write (Spec.Map.write (Spec.Map.write Spec.Map.empty (key 0x10, some [1]))
        (key 0x1f, some [2])) (key 0x80, some [3])) (key 0x10, some [4]) k = _
      unfold Spec.Map.write Spec.Map.empty
      repeat' split
      all_goals first | rfl | contradiction
    rw [hm]
    unfold all1
    have e1 : key 0x10 ≠ key 0x80 := by decide
    have e2 : key 0x10 ≠ key 0x1f := by decide
    have e3 : key 0x80 ≠ key 0x1f := by decide
    by_cases h1 : k = key 0x10
    · subst h1; simp [e1, e2, eq_comm]
    · by_cases h2 : k = key 0x80
      · subst h2; simp [e1.symm, e3, e1, e3.symm]; exact eq_comm
      · by_cases h3 : k = key 0x1f
        · subst h3; simp [e2.symm, e3.symm, e2, e3]; exact eq_comm
        · simp [h1, h2, h3]

theorem noPlaceholder1 : ∀ p ∈ Spec.treeStrings T (Spec.hashed T all1), p.hash T ≠ placeholder := by decide +kernel

end Sample

/-- C23 and C25 at version 1 of the sample history (three keys, two of them sharing a nibble), restored as version 5: chunks of one and
two pairs; and a restart in between, after which the last received pair is sent again. -/
example : ∃ y root z s', Reached Sample.T Sample.ops y ∧ getRootHash Sample.T y.store.reader 1 = .ok root ∧
    Sess.run Sample.T true y.store.reader 1 Sample.all1 5 root (Sess.start false 5 root) [.feed 0, .feed 1] = .ok z ∧
    z.receiver.finish Sample.T z.store = .ok s' ∧ SameQueries Sample.T s'.reader y.store.reader 5 1 := by
  obtain ⟨y, hy⟩ := Sample.reached Sample.T
  obtain ⟨es, hes⟩ := C03_listing_exists Sample.T Sample.ops 1
  have hroot := (hy.readAt Sample.bound Sample.readable1).rootHash
  obtain ⟨z, s', h1, h2, h3, -⟩ := C23_restore_reproduces (w := 5) (checked := true) (ow := false) hy Sample.bound Sample.readable1 Sample.sorted1
    (by decide) hroot Sample.noPlaceholder1 [0, 1] (by decide)
  exact ⟨y, _, z, s', hy, hroot, h1, h2, h3⟩

example : ∃ y root z z' s', Reached Sample.T Sample.ops y ∧
    Sess.run Sample.T true y.store.reader 1 Sample.all1 5 root (Sess.start false 5 root) [.feed 0, .restart, .feed 0, .restart, .restart] = .ok z ∧
    Sess.run Sample.T true y.store.reader 1 Sample.all1 5 root z [.feed 5] = .ok z' ∧
    z'.receiver.finish Sample.T z'.store = .ok s' ∧ SameQueries Sample.T s'.reader y.store.reader 5 1 := by
  obtain ⟨y, hy⟩ := Sample.reached Sample.T
  have hroot := (hy.readAt Sample.bound Sample.readable1).rootHash
  obtain ⟨z, z', s', h1, h2, h3, h4, -⟩ := C25_crash_restore (w := 5) (checked := true) (ow := false) hy Sample.bound Sample.readable1 Sample.sorted1
    (by decide) hroot Sample.noPlaceholder1 [.feed 0, .restart, .feed 0, .restart, .restart] [5] (by decide)
  exact ⟨y, _, z, z', s', hy, h1, h2, h3, h4⟩

/-! ### Feeding the two-key map pair by pair -/

namespace Sample

/-- The first chunk of the two-key map, with its range proof (one right sibling, the leaf of the second key). -/
def chunk10 : RecvEvent := .chunk [(key 0x10, [4])] ⟨[.leaf (key 0x80) (toy [3])]⟩

/-- The second chunk with its range proof. -/
def chunk80 : RecvEvent := .chunk [(key 0x80, [3])] ⟨[]⟩

/-- Everything hashed. -/
def strings2 : List Preimage :=
  [.leaf (key 0x10) (toy [4]), .leaf (key 0x80) (toy [3]),
   .internal (T.leafHash (key 0x10) (toy [4])) (T.leafHash (key 0x80) (toy [3]))]

def fed (evs : List RecvEvent) : Recv := (Recv.start false).run T true 5 (Spec.root T es2) evs

theorem nc_strings2 : Spec.NoCollision T strings2 := ⟨by decide +kernel, by decide +kernel⟩

end Sample



namespace Sample

theorem nc_fed {evs : List RecvEvent} (h : ∀ p ∈ (fed evs).strings, p ∈ strings2) :
    Spec.NoCollision T (Spec.treeStrings T es2 ++ (fed evs).strings) := by
  apply NoCollision.sub nc_strings2
  intro p hp
  rcases List.mem_append.1 hp with hp | hp
  · exact (by decide +kernel : ∀ p ∈ Spec.treeStrings T es2, p ∈ strings2) p hp
  · exact h p hp

theorem fed_ok : (fed [.restart, chunk10, .restart, chunk10, chunk80]).result = .ok () := ok_of (by decide +kernel)

theorem fed_strings : ∀ p ∈ (fed [.restart, chunk10, .restart, chunk10, chunk80]).strings, p ∈ strings2 := by decide +kernel

end Sample

/-- C24: feeding the two-key map pair by pair, with a restart in between. -/
example : ∃ last x, [(Sample.key 0x80, [(3 : UInt8)])].getLast? = some (last, x) ∧ ∀ k : KeyHash,
    ¬ last.val < k.val → ((Sample.fed [.restart, Sample.chunk10, .restart, Sample.chunk10, Sample.chunk80]).store.getValueOption 5 k).map
      Sample.T.hash = (Sample.s2 k).map Sample.T.hash := by
  obtain ⟨-, last, x, h1, h2⟩ := C24_accepted_chunk (ow := false) (checked := true) (w := 5)
    (evs := [.restart, Sample.chunk10, .restart, Sample.chunk10]) Sample.lists2
    [(Sample.key 0x80, [3])] ⟨[]⟩ (Sample.nc_fed Sample.fed_strings) Sample.fed_ok
  exact ⟨last, x, h1, fun k => (h2 k).1⟩

/-- C24: leaving out the first key is noticed. -/
example : (Sample.fed [.restart, Sample.chunk80]).result ≠ .ok () := by
  intro h
  have : (match (Sample.fed [.restart, Sample.chunk80]).result with | .ok _ => true | .error _ => false) = false := by decide +kernel
  rw [h] at this
  cases this

/-- C26: `finish` after the first chunk stores the tree of the first pair alone. -/
example : ∃ r s' last x, (Sample.fed [.restart, Sample.chunk10]).receiver = some r ∧
    r.finish Sample.T (Sample.fed [.restart, Sample.chunk10]).store = .ok s' ∧
    [(Sample.key 0x10, [(4 : UInt8)])].getLast? = some (last, x) ∧
    getRootHash Sample.T s'.reader 5 = .ok (Spec.root Sample.T (Sample.es2.filter (fun e => !decide (last.val < e.1.val)))) :=
  C26_finish_stores_received_partial (ow := false) (checked := true) (w := 5) (evs := [.restart]) Sample.lists2
    [(Sample.key 0x10, [4])] ⟨[.leaf (Sample.key 0x80) (Sample.toy [3])]⟩ (Sample.nc_fed (by decide +kernel)) (Sample.ok_of (by decide +kernel))

/-! ### What goes wrong -/

/-- C26 is false: `finish` compares nothing with the expected root.  Called after the first of two chunks it returns `Ok` and stores a tree with
another root hash (no collision is involved). -/
theorem C26_finish_checks_nothing : ∃ (f : List UInt8 → Digest) (es : List Entry) (evs : List RecvEvent) (r : Restore) (s' : Store) (h : Digest),
    Spec.NoCollision (.ofDigest f) (Spec.treeStrings (.ofDigest f) es ++
      ((Recv.start false).run (.ofDigest f) true 5 (Spec.root (.ofDigest f) es) evs).strings) ∧
    ((Recv.start false).run (.ofDigest f) true 5 (Spec.root (.ofDigest f) es) evs).receiver = some r ∧
    r.finish (.ofDigest f) ((Recv.start false).run (.ofDigest f) true 5 (Spec.root (.ofDigest f) es) evs).store = .ok s' ∧
    getRootHash (.ofDigest f) s'.reader 5 = .ok h ∧ h ≠ Spec.root (.ofDigest f) es := by
  obtain ⟨r, s', last, x, h1, h2, h3, h4⟩ := C26_finish_stores_received_partial (ow := false) (checked := true) (w := 5) (evs := [.restart]) Sample.lists2
    [(Sample.key 0x10, [4])] ⟨[.leaf (Sample.key 0x80) (Sample.toy [3])]⟩ (Sample.nc_fed (evs := [.restart, Sample.chunk10]) (by decide +kernel)) (Sample.ok_of (by decide +kernel))
  simp only [List.getLast?_singleton, Option.some.injEq, Prod.mk.injEq] at h3
  obtain ⟨rfl, rfl⟩ := h3
  exact ⟨Sample.toy, Sample.es2, [.restart, Sample.chunk10], r, s', _, Sample.nc_fed (by decide +kernel), h1, h2, h4, by decide +kernel⟩

namespace Sample

/-- What `finish` does after the events: does the resulting store satisfy `p`? -/
def finishes (evs : List RecvEvent) (p : Store → Bool) : Bool :=
  match (fed evs).receiver with
  | none => false
  | some r => match r.finish T (fed evs).store with | .ok s => p s | .error _ => false

theorem of_finishes {evs : List RecvEvent} {p : Store → Bool} (h : finishes evs p = true) :
    ∃ r s', (fed evs).receiver = some r ∧ r.finish T (fed evs).store = .ok s' ∧ p s' = true := by
  unfold finishes at h
  cases hr : (fed evs).receiver with
  | none => rw [hr] at h; cases h
  | some r =>
    rw [hr] at h
    simp only [] at h
    cases hf : r.finish T (fed evs).store with
    | error e => rw [hf] at h; cases h
    | ok s => rw [hf] at h; exact ⟨r, s, rfl, hf, h⟩

def panicked {α : Type} : Except Err α → Bool
  | .error (.panic _) => true
  | _ => false

theorem of_panicked {α : Type} {e : Except Err α} (h : panicked e = true) : ∃ m, e = .error (.panic m) := by
  cases e with
  | ok a => cases h
  | error x => cases x with
    | panic m => exact ⟨m, rfl⟩
    | _ => cases h

end Sample

/-- After everything has been accepted, a restart loses the last pair from the receiver: `finish`, called at once, returns `Ok` and stores another
root hash than expected, although all chunks were authentic and accepted. -/
theorem C25_restart_then_finish_loses_last : ∃ r s' h,
    (Sample.fed [.restart, Sample.chunk10, Sample.chunk80]).result = .ok () ∧
    (Sample.fed [.restart, Sample.chunk10, Sample.chunk80, .restart]).receiver = some r ∧
    r.finish Sample.T (Sample.fed [.restart, Sample.chunk10, Sample.chunk80, .restart]).store = .ok s' ∧
    getRootHash Sample.T s'.reader 5 = .ok h ∧ h ≠ Spec.root Sample.T Sample.es2 := by
  obtain ⟨r, s', h1, h2, h3⟩ := Sample.of_finishes (evs := [.restart, Sample.chunk10, Sample.chunk80, .restart])
    (p := fun s => match getRootHash Sample.T s.reader 5 with
      | .ok h => decide (h ≠ Spec.root Sample.T Sample.es2)
      | .error _ => false) (by decide +kernel)
  cases hg : getRootHash Sample.T s'.reader 5 with
  | error e => rw [hg] at h3; cases h3
  | ok h =>
    rw [hg] at h3
    exact ⟨r, s', h, Sample.ok_of (by decide +kernel), h1, h2, hg, of_decide_eq_true h3⟩

/-- `finish` without any key panics, so an empty map cannot be restored (for every hash function, version and expected root). -/
theorem C23_empty_map_panics (H : Hasher) (w : Version) (root : Digest) (s : Store) :
    ∃ m, (Restore.newOverwrite w root).finish H s = .error (.panic m) := by
  have hc : ∀ (is : List Nibble) (cs : Children), InternalInfo.collect H w (fun _ => none) is cs = .ok cs := by
    intro is
    induction is with
    | nil => intro cs; rfl
    | cons i is ih => intro cs; exact ih cs
  refine ⟨"Children must not be empty", ?_⟩
  show (do
    let n ← (do
      let cs ← InternalInfo.collect H w (fun _ => none) (List.finRange 16) Children.empty
      let n ← InternalNode.new cs
      .ok (NodeKey.root w, n))
    let h ← n.2.hash H
    let ps ← Restore.fillParent [] h n.2.leafCount
    let r ← Restore.freezeInternalLoop H 0 { (Restore.newOverwrite w root).insertFrozen n.1 (.internal n.2) with partialNodes := ps }
    s.writeNodeBatch r.frozenNodes) = _
  rw [hc, ok_bind]
  rfl

/-- `new` on the store of a completed restoration panics. -/
theorem C25_new_after_completion_panics : ∃ r s' m, (Sample.fed [.restart, Sample.chunk10, Sample.chunk80]).receiver = some r ∧
    r.finish Sample.T (Sample.fed [.restart, Sample.chunk10, Sample.chunk80]).store = .ok s' ∧
    Restore.new Sample.T s'.reader 5 (Spec.root Sample.T Sample.es2) = .error (.panic m) := by
  obtain ⟨r, s', h1, h2, h3⟩ := Sample.of_finishes (evs := [.restart, Sample.chunk10, Sample.chunk80])
    (p := fun s => Sample.panicked (Restore.new Sample.T s.reader 5 (Spec.root Sample.T Sample.es2))) (by decide +kernel)
  obtain ⟨m, hm⟩ := Sample.of_panicked h3
  exact ⟨r, s', m, h1, h2, hm⟩

/-- A failed chunk stays in the receiver: `finish` after a refused first chunk of one pair panics. -/
theorem C26_finish_after_refused_chunk_panics : ∃ r e m, (Sample.fed [.restart, Sample.chunk80]).result = .error (.bail e) ∧
    (Sample.fed [.restart, Sample.chunk80]).receiver = some r ∧
    r.finish Sample.T (Sample.fed [.restart, Sample.chunk80]).store = .error (.panic m) := by
  have h1 : (match (Sample.fed [.restart, Sample.chunk80]).result with | .error (.bail _) => true | _ => false) = true := by decide +kernel
  have h2 : (match (Sample.fed [.restart, Sample.chunk80]).receiver with
      | some r => Sample.panicked (r.finish Sample.T (Sample.fed [.restart, Sample.chunk80]).store)
      | none => false) = true := by decide +kernel
  cases hr : (Sample.fed [.restart, Sample.chunk80]).receiver with
  | none => rw [hr] at h2; cases h2
  | some r =>
    rw [hr] at h2
    obtain ⟨m, hm⟩ := Sample.of_panicked h2
    cases he : (Sample.fed [.restart, Sample.chunk80]).result with
    | ok u => rw [he] at h1; cases h1
    | error e => cases e with
      | bail e => exact ⟨r, e, m, rfl, rfl, hm⟩
      | _ => rw [he] at h1; cases h1

namespace Sample

def key2 (b c : UInt8) : KeyHash := ⟨b :: c :: List.replicate 30 0, rfl⟩

def es123 : List Entry := [(key 0x10, toy [4]), (key 0x1f, toy [2]), (key 0x80, toy [3])]

/-- The three authentic chunks of one pair each, a restart, and then a pair that belongs below a stored internal node. -/
def hostile : List RecvEvent :=
  [.restart,
   .chunk [(key 0x10, [4])] ⟨[.leaf (key 0x1f) (toy [2]), .null, .null, .leaf (key 0x80) (toy [3])]⟩,
   .chunk [(key 0x1f, [2])] ⟨[.null, .null, .leaf (key 0x80) (toy [3])]⟩,
   .chunk [(key 0x80, [3])] ⟨[]⟩, .restart]

end Sample

/-- A key sent by an adversary can make `add_chunk` panic instead of returning an error: after a restart, a key above the rightmost stored
leaf but below an internal node that is already stored.  (Nothing is written: `C24_error_writes_nothing`.) -/
theorem C24_hostile_key_panics : ((Recv.start false).run Sample.T true 5 (Spec.root Sample.T Sample.es123) Sample.hostile).result = .ok () ∧
    ((Recv.start false).run Sample.T true 5 (Spec.root Sample.T Sample.es123) Sample.hostile).accepted = Sample.all1 ∧
    ∃ m, ((Recv.start false).run Sample.T true 5 (Spec.root Sample.T Sample.es123)
      (Sample.hostile ++ [.chunk [(Sample.key2 0x1f 1, [9])] ⟨[]⟩])).result = .error (.panic m) :=
  ⟨Sample.ok_of (by decide +kernel), by decide +kernel, Sample.of_panicked (by decide +kernel)⟩

end Jmt
