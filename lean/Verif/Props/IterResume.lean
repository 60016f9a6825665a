import Verif.Proofs.IterResume
import Verif.Props.Faults
/-!
# Property C55: an iterator can be called again after an error
-/
namespace Jmt
open Spec (AnyFault Entry)

variable {H : Hasher} {ops : List Op} {y : Sys}

/-- The root of a version is a leaf exactly when its map has one key. -/
theorem ReadTree.root_leaf {R : Reader} {v : Version} {mp : Spec.Map} {es : List Entry} (r : ReadTree H R v mp es) :
    (∃ l, R.getNode (NodeKey.root v) = .ok (.leaf l)) ↔ Spec.OneKey mp := by
  obtain ⟨ver, t⟩ := r.rootNode
  have hg : R.getNode (NodeKey.root v) = .ok (canonNode H es ver []) := by
    unfold Reader.getNode; rw [t]
  rw [hg]
  have hkey : ∀ k, mp k ≠ none ↔ ∃ e ∈ es, e.1 = k := by
    intro k
    constructor
    · intro hk
      obtain ⟨x, hx⟩ := Option.ne_none_iff_exists'.1 hk
      exact ⟨(k, H.hash x), (r.lists.mem k _).2 ⟨x, hx, rfl⟩, rfl⟩
    · rintro ⟨⟨k', vh⟩, he, rfl⟩
      obtain ⟨x, hx, -⟩ := (r.lists.mem k' vh).1 he
      simp only at hx ⊢
      rw [hx]; simp
  match hes : es with
  | [] =>
    constructor
    · rintro ⟨l, h⟩
      rw [canonNode_nil (by simp)] at h; cases h
    · rintro ⟨k, hk⟩
      obtain ⟨e, he, -⟩ := (hkey k).1 ((hk k).2 rfl)
      cases he
  | [e] =>
    constructor
    · intro _
      refine ⟨e.1, fun k' => ?_⟩
      rw [hkey]
      simp [eq_comm]
    · intro _
      rw [canonNode_one (e := e) (by simp)]
      exact ⟨_, rfl⟩
  | a :: b :: l =>
    constructor
    · rintro ⟨l', h⟩
      rw [canonNode_two (by simp)] at h; cases h
    · rintro ⟨k, hk⟩
      have h1 := (hk a.1).1 ((hkey _).2 ⟨a, by simp, rfl⟩)
      have h2 := (hk b.1).1 ((hkey _).2 ⟨b, by simp, rfl⟩)
      have hnd := r.nodup
      unfold NodupE at hnd
      rw [List.map_cons, List.nodup_cons] at hnd
      exact absurd (by rw [h1, ← h2]; simp : a.1 ∈ (b :: l).map Prod.fst) hnd.1

/-- If the root of a version is a leaf, its key is the only one. -/
theorem ReadTree.root_leaf_key {R : Reader} {v : Version} {mp : Spec.Map} {es : List Entry} (r : ReadTree H R v mp es) {l : LeafNode}
    (hl : R.getNode (NodeKey.root v) = .ok (.leaf l)) : Spec.OnlyKey mp l.keyHash := by
  obtain ⟨k, hk⟩ := r.root_leaf.1 ⟨l, hl⟩
  have : k = l.keyHash := by
    obtain ⟨x, hx⟩ := Option.ne_none_iff_exists'.1 ((hk k).2 rfl)
    have hm := (r.lists.mem k _).2 ⟨x, hx, rfl⟩
    obtain ⟨ver, t⟩ := r.rootNode
    have hg : R.getNode (NodeKey.root v) = .ok (canonNode H es ver []) := by
      unfold Reader.getNode; rw [t]
    rw [hg] at hl
    match hes : es, hm, hl with
    | [], hm, _ => cases hm
    | [e], hm, hl =>
      rw [canonNode_one (e := e) (by simp)] at hl
      cases hl
      rw [List.mem_singleton] at hm
      rw [← hm]
    | a :: b :: l, _, hl =>
      rw [canonNode_two (by simp)] at hl; cases hl
  rwa [← this]

/-- C55: take an iterator on a readable version, started at a key or at an index, and call `next` as often as
you like, during each call with reads that fail or report something missing in any way - except that, if the map has exactly one
key, the read of its value must not fail. No call panics; the pairs returned are, in order, a first
part of what the iterator yields on the sound store; `None` is returned only after the last of them; and from then on, when
the reads succeed, the iterator yields exactly the rest. -/
theorem C55_iterator_resumes_partial (hr : Reached H ops y) (hb : (setsOf ops).length < 2 ^ 64) {v : Version} (hv : Readable ops v)
    {it : Iter} (hnew : (∃ start, Iter.new y.store.reader v start = .ok it) ∨ ∃ i, Iter.newByIndex y.store.reader v i = .ok it)
    {items : List (KeyHash × Value)} (hy : it.Yields y.store.reader items) {Rs : List Reader}
    (hRs : ∀ R' ∈ Rs, AnyFault R' y.store.reader)
    (hone : ∀ k, Spec.OnlyKey (mapAt ops v) k → ∀ R' ∈ Rs, R'.getValueOption v k = y.store.reader.getValueOption v k) :
    ∃ outs it' later, Iter.calls Rs it = .ok (outs, it') ∧ items = Spec.served outs ++ later ∧
      (none ∈ outs → later = []) ∧ it'.Yields y.store.reader later := by
  have hver : it.version = v := by
    rcases hnew with ⟨start, h⟩ | ⟨i, h⟩
    · exact newLoop_version h
    · exact newByIndex_version h
  obtain ⟨outs, it', later, a1, -, a2, a3, a4⟩ := calls_resume Rs hRs (fun R' hR' l hl => by
    unfold Reader.getValue
    rw [hone _ ((hr.readAt hb hv).root_leaf_key hl) R' hR']) hver hy
  exact ⟨outs, it', later, a1, a2, a4, a3⟩

/-- What is missing from C55: when the map has exactly one key, an error while its value is read makes the iterator forget the
pair: the next call returns `None`, for ever, although the store is sound again. -/
theorem C55_only_pair_lost (hr : Reached H ops y) (hb : (setsOf ops).length < 2 ^ 64) {v : Version} (hv : Readable ops v)
    (hone : Spec.OneKey (mapAt ops v)) {start : KeyHash} {it : Iter} (hnew : Iter.new y.store.reader v start = .ok it)
    {kv : KeyHash × Value} (hy : it.Yields y.store.reader [kv]) {R' : Reader} (hf : AnyFault R' y.store.reader) {e : Err}
    (hroot : R'.getNodeOption (NodeKey.root v) = y.store.reader.getNodeOption (NodeKey.root v))
    (he : R'.getValue v kv.1 = .error e) :
    ∃ it', it.next R' = .ok (some (.error e), it') ∧ it'.Yields y.store.reader [] := by
  obtain ⟨l, hl⟩ := (hr.readAt hb hv).root_leaf.2 hone
  have hver : it.version = v := newLoop_version hnew
  have hl' : R'.getNode (NodeKey.root v) = .ok (.leaf l) := by
    unfold Reader.getNode at hl ⊢; rw [hroot]; exact hl
  cases hy with
  | item h hy' =>
    have hd : it.done = false := by
      cases hd : it.done with
      | false => rfl
      | true => unfold Iter.next at h; rw [if_pos hd] at h; cases h
    have hs : it.stack = [] := by
      unfold Iter.new Iter.newLoop at hnew
      rw [hl, ok_bind] at hnew
      simp only at hnew
      unfold Iter.newFinish at hnew
      rw [hl, ok_bind] at hnew
      simp only at hnew
      split at hnew
      · cases hnew; rfl
      · cases hnew; rfl
    obtain ⟨ver, stk, dn⟩ := it
    simp only at hver hd hs
    subst hver hd hs
    have hk : l.keyHash = kv.1 := by
      unfold Iter.next at h
      simp only [Bool.false_eq_true, if_false, hl] at h
      split at h
      · cases h
      · cases h; rfl
    refine ⟨⟨ver, [], true⟩, ?_, yields_done _⟩
    unfold Iter.next
    simp only [Bool.false_eq_true, if_false, hl', hk, he]

namespace Sample

/-- A reader whose value reads all fail. -/
def failValues (R : Reader) : Reader := { R with getValueOption := fun _ _ => .error (.io "disk") }

theorem failValues_faulty (R : Reader) : AnyFault (failValues R) R :=
  ⟨fun _ => .inl rfl, fun _ _ => .inr (.inl ⟨_, rfl⟩), .inl rfl⟩

/-- The hypotheses of `C55_iterator_resumes_partial` are met: version 3 of the sample history has two keys, and the iterator from the start is called
once with value reads failing, once soundly, once with the root lost, and once soundly. -/
example (H : Hasher) : ∃ y it items, Reached H Sample.ops y ∧ (∀ k, ¬ Spec.OnlyKey (mapAt Sample.ops 3) k) ∧
    Iter.new y.store.reader 3 (Sample.key 0) = .ok it ∧ it.Yields y.store.reader items ∧
    (∃ R', R' ≠ y.store.reader ∧ ∀ R ∈ [R', y.store.reader, loseRoot y.store.reader 3, y.store.reader], AnyFault R y.store.reader) := by
  obtain ⟨y, hr⟩ := Sample.reached H
  obtain ⟨it, items, h1, h2, -, -⟩ := C20_iterator hr Sample.bound Sample.readable3 (Sample.key 0)
  have hself : AnyFault y.store.reader y.store.reader := ⟨fun _ => .inl rfl, fun _ _ => .inl rfl, .inl rfl⟩
  refine ⟨y, it, items, hr, ?_, h1, h2, failValues y.store.reader, ?_, ?_⟩
  · intro k hk
    have e1 : mapAt Sample.ops 3 (Sample.key 0x10) ≠ none := by decide
    have e2 : mapAt Sample.ops 3 (Sample.key 0x80) ≠ none := by decide
    have h3 := ((hk _).1 e1).trans ((hk _).1 e2).symm
    exact absurd h3 (by decide)
  · intro h
    have h5 : (failValues y.store.reader).getValueOption 3 (Sample.key 0x80) = y.store.reader.getValueOption 3 (Sample.key 0x80) := by rw [h]
    have h6 := C01_get_is_versioned_map hr Sample.bound (Sample.key 0x80) 3
    unfold get at h6
    rw [← h5] at h6
    cases h6
  · intro R hR
    simp only [List.mem_cons, List.not_mem_nil, or_false] at hR
    rcases hR with rfl | rfl | rfl | rfl
    · exact failValues_faulty _
    · exact hself
    · exact loseRoot_faulty _ _
    · exact hself

/-- The hypotheses of `C55_only_pair_lost` are met by a history with one key, for every hasher. -/
example (H : Hasher) : ∃ y it e, Reached H [.commit [[(Sample.key 0x10, some [7])]]] y ∧
    Spec.OneKey (mapAt [.commit [[(Sample.key 0x10, some [7])]]] 0) ∧
    Iter.new y.store.reader 0 (Sample.key 0) = .ok it ∧ it.Yields y.store.reader [(Sample.key 0x10, [7])] ∧
    (failValues y.store.reader).getNodeOption (NodeKey.root 0) = y.store.reader.getNodeOption (NodeKey.root 0) ∧
    (failValues y.store.reader).getValue 0 (Sample.key 0x10) = .error e := by
  have hm : ∀ k, mapAt [.commit [[(Sample.key 0x10, some [7])]]] 0 k = if k = Sample.key 0x10 then some [7] else none := by
    intro k
    simp [mapAt, Spec.stateAfter, setsOf, Spec.Map.writes, Spec.Map.write, Spec.Map.empty]
  obtain ⟨y, hr⟩ := C13_history_never_fails H [.commit [[(Sample.key 0x10, some [7])]]] (by decide) (by decide)
  obtain ⟨it, items, h1, h2, h3, h4⟩ := C20_iterator (v := 0) hr (by decide) ⟨by decide, by decide⟩ (Sample.key 0)
  have hit : items = [(Sample.key 0x10, [7])] := by
    have hmem : ∀ k x, (k, x) ∈ items ↔ (k, x) = (Sample.key 0x10, [7]) := by
      intro k x
      rw [h4, hm]
      by_cases hk : k = Sample.key 0x10
      · subst hk
        have : (Sample.key 0).val ≤ (Sample.key 0x10).val := by decide
        simp [this, eq_comm]
      · simp [hk]
    match items, h3, hmem with
    | [], _, hmem => exact absurd ((hmem _ _).2 rfl) (by simp)
    | [a], _, hmem => exact congrArg (fun z => [z]) ((hmem a.1 a.2).1 (by simp))
    | a :: b :: l, h3, hmem =>
      have ha := (hmem a.1 a.2).1 (by simp)
      have hb := (hmem b.1 b.2).1 (by simp)
      have := (List.pairwise_cons.1 h3).1 b (by simp)
      rw [show a = b from ha.trans hb.symm] at this
      exact absurd this (by simp)
  subst hit
  refine ⟨y, it, .io "disk", hr, ⟨Sample.key 0x10, fun k' => ?_⟩, h1, h2, rfl, rfl⟩
  rw [hm]; split <;> simp_all

end Sample
end Jmt
