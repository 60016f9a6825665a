import Verif.Proofs.Sorted
import Verif.Props.Stale
/-!
# C20, C21: iteration
-/
namespace Jmt
open Spec (Entry)

/-- The pairs of a listed map. -/
def pairsOf (mp : Spec.Map) (es : List Entry) : List (KeyHash × Value) :=
  es.map (fun e => (e.1, (mp e.1).getD []))

theorem pairsOf_mem {H : Hasher} {mp : Spec.Map} {es : List Entry} (hl : Spec.Lists H mp es) (k x) :
    (k, x) ∈ pairsOf mp es ↔ mp k = some x := by
  unfold pairsOf
  rw [List.mem_map]
  constructor
  · rintro ⟨⟨k', vh⟩, h1, h2⟩
    simp only [Prod.mk.injEq] at h2
    obtain ⟨y, hy, -⟩ := (hl.mem k' vh).1 h1
    rw [← h2.1, ← h2.2, hy]; rfl
  · intro h
    exact ⟨(k, H.hash x), (hl.mem k _).2 ⟨x, h, rfl⟩, by simp [h]⟩

theorem pairsOf_sorted {mp : Spec.Map} {es : List Entry} (h : SortedE es) :
    (pairsOf mp es).Pairwise (fun a b => a.1.val < b.1.val) := by
  unfold pairsOf
  rw [List.pairwise_map]
  exact h.imp (fun hab => nibbles_lt.1 hab)

variable {H : Hasher} {ops : List Op} {y : Sys}

/-- An iterator over a readable version. -/
theorem ReadTree.iter {R : Reader} {v : Version} {mp : Spec.Map} {es : List Entry} (r : ReadTree H R v mp es) (start : KeyHash) :
    ∃ it items, Iter.new R v start = .ok it ∧ it.Yields R items ∧
      items.Pairwise (fun a b => a.1.val < b.1.val) ∧
      ∀ k x, (k, x) ∈ items ↔ mp k = some x ∧ start.val ≤ k.val := by
  obtain ⟨ver, hnd, hs, t, hx, hl⟩ := r.sorted
  obtain ⟨it, h1, h2⟩ := newLoop_spec hnd hs t hx start (rem := start.nibbles) (p := []) rfl .nil (.inl rfl)
  refine ⟨it, _, h1, h2, pairsOf_sorted (hs.filter _), fun k x => ?_⟩
  rw [← pairsOf_mem hl]
  unfold rest
  constructor
  · intro h
    obtain ⟨e, he, hek⟩ := List.mem_map.1 h
    rw [List.mem_filter, bne_iff_ne, ne_eq, pos_gt_iff (by simp)] at he
    refine ⟨List.mem_map.2 ⟨e, he.1, hek⟩, ?_⟩
    have : e.1 = k := by simpa using (congrArg Prod.fst hek)
    rw [← this]
    intro hc
    exact he.2 (nibbles_lt.2 hc)
  · rintro ⟨h, hle⟩
    obtain ⟨e, he, hek⟩ := List.mem_map.1 h
    refine List.mem_map.2 ⟨e, ?_, hek⟩
    rw [List.mem_filter, bne_iff_ne, ne_eq, pos_gt_iff (by simp)]
    refine ⟨he, fun hc => ?_⟩
    have : e.1 = k := by simpa using (congrArg Prod.fst hek)
    rw [this] at hc
    exact hle (nibbles_lt.1 hc)

/-- Iterators by index over a readable version. -/
theorem ReadTree.iterByIndex {R : Reader} {v : Version} {mp : Spec.Map} {es : List Entry} (r : ReadTree H R v mp es) :
    ∃ items, SortedPairs mp items ∧ ∀ i, ∃ it, Iter.newByIndex R v i = .ok it ∧ it.Yields R (items.drop i) := by
  obtain ⟨ver, hnd, hs, t, hx, hl⟩ := r.sorted
  refine ⟨pairsOf (mp) _, ⟨pairsOf_sorted hs, pairsOf_mem hl⟩, fun i => ?_⟩
  unfold Iter.newByIndex
  have hroot : R.getNode (NodeKey.root v) = .ok (canonNode H (sortE es) ver []) := by
    have := t.read (q := []) (.inl rfl)
    simpa [verAt, NodeKey.root] using this
  rw [hroot, ok_bind, canonNode_leafCount, under_nil_prefix]
  by_cases hi : (sortE es).length ≤ i
  · rw [if_pos hi]
    refine ⟨_, rfl, ?_⟩
    rw [List.drop_eq_nil_of_le (by simpa [pairsOf] using hi)]
    exact yields_done _
  · rw [if_neg hi]
    have hb0 : before (sortE es) [] = [] := by
      unfold before; rw [List.filter_eq_nil_iff]; intro e _; simp [pos]
    have := byIndexLoop_spec hnd hs t hx i (f := rootNibbleHeight + 1) (p := []) .nil (.inl rfl)
      (by simp [rootNibbleHeight]) (by rw [hb0]; simp) (by rw [hb0]; simpa using hi)
    rw [hb0] at this
    unfold pairsOf
    rw [← List.map_drop]
    exact this

/-- C20. An iterator started at `start` on a readable version yields, without error or panic, exactly the
pairs of the map at that version whose key is at least `start`, in strictly increasing key order,
and then ends. -/
theorem C20_iterator (hr : Reached H ops y) (hb : (setsOf ops).length < 2 ^ 64) {v : Version}
    (hv : Readable ops v) (start : KeyHash) :
    ∃ it items, Iter.new y.store.reader v start = .ok it ∧ it.Yields y.store.reader items ∧
      items.Pairwise (fun a b => a.1.val < b.1.val) ∧
      ∀ k x, (k, x) ∈ items ↔ mapAt ops v k = some x ∧ start.val ≤ k.val :=
  (hr.readAt hb hv).iter start

/-- C21. There is one sorted list of the pairs of a readable version such that the iterator started at index
`i` yields exactly the list without its first `i` items (nothing if `i` is too large). -/
theorem C21_iterator_by_index (hr : Reached H ops y) (hb : (setsOf ops).length < 2 ^ 64) {v : Version}
    (hv : Readable ops v) : ∃ items, SortedPairs (mapAt ops v) items ∧
      ∀ i, ∃ it, Iter.newByIndex y.store.reader v i = .ok it ∧ it.Yields y.store.reader (items.drop i) :=
  (hr.readAt hb hv).iterByIndex

/-- Two iterators over the same items agree: what an iterator yields is determined by its state. -/
theorem Iter.Yields.det {R : Reader} {it : Iter} {a b : List (KeyHash × Value)} (ha : it.Yields R a)
    (hb : it.Yields R b) : a = b := by
  induction ha generalizing b with
  | done h =>
    cases hb with
    | done _ => rfl
    | item h' _ => rw [h] at h'; cases h'
  | item h _ ih =>
    cases hb with
    | done h' => rw [h] at h'; cases h'
    | item h' hy =>
      rw [h] at h'
      cases h'
      rw [ih hy]

/-- The hypotheses are met, and the statement pins the items down: in the sample history version 3 holds
`10.. -> 4` and `80.. -> 3`, and the iterator from key `11..` yields the second only. -/
example (H : Hasher) : ∃ y, Reached H Sample.ops y ∧ ∃ it, Iter.new y.store.reader 3 (Sample.key 0x11) = .ok it ∧
    it.Yields y.store.reader [(Sample.key 0x80, [3])] := by
  obtain ⟨y, hr⟩ := Sample.reached H
  obtain ⟨it, items, h1, h2, h3, h4⟩ := C20_iterator hr Sample.bound Sample.readable3 (Sample.key 0x11)
  have hm : ∀ k x, (k, x) ∈ items ↔ (k, x) = (Sample.key 0x80, [3]) := by
    intro k x
    rw [h4]
    have : mapAt Sample.ops 3 k = if k = Sample.key 0x1f then none else
        if k = Sample.key 0x10 then some [4] else if k = Sample.key 0x80 then some [3] else none := by
      simp [mapAt, Spec.stateAfter, setsOf, Sample.ops, Spec.Map.writes, Spec.Map.write, Spec.Map.empty]
      split <;> simp_all
    rw [this]
    by_cases e1 : k = Sample.key 0x1f
    · subst e1
      have h : Sample.key 0x1f ≠ Sample.key 0x80 := by decide
      simp [h]
    · by_cases e2 : k = Sample.key 0x10
      · subst e2
        have : ¬ (Sample.key 0x11).val ≤ (Sample.key 0x10).val := by decide
        have h : Sample.key 0x10 ≠ Sample.key 0x80 := by decide
        simp [this, h]
      · by_cases e3 : k = Sample.key 0x80
        · subst e3
          have h1 : (Sample.key 0x11).val ≤ (Sample.key 0x80).val := by decide
          have h2 : Sample.key 0x80 ≠ Sample.key 0x10 := by decide
          have h3 : Sample.key 0x80 ≠ Sample.key 0x1f := by decide
          simp [h1, h2, h3, eq_comm]
        · simp [e1, e2, e3]
  have : items = [(Sample.key 0x80, [3])] := by
    match items, h3, hm with
    | [], _, hm => exact absurd ((hm _ _).2 rfl) (by simp)
    | [a], _, hm => exact congrArg (fun z => [z]) ((hm a.1 a.2).1 (by simp))
    | a :: b :: l, h3, hm =>
      have ha := (hm a.1 a.2).1 (by simp)
      have hb := (hm b.1 b.2).1 (by simp)
      have := List.rel_of_pairwise_cons h3 (List.mem_cons_self ..)
      rw [show a.1 = b.1 by rw [(Prod.mk.inj ha).1, (Prod.mk.inj hb).1]] at this
      exact absurd this (List.lt_irrefl _)
  rw [this] at h2
  exact ⟨y, hr, it, h1, h2⟩

end Jmt
