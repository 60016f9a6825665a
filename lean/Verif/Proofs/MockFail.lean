import Verif.Model.MockFail
import Verif.Spec.Writers
import Verif.Props.WrongVersion
/-!
# What a failing write leaves in the store
-/
namespace Jmt
open Spec (PartlyWritten)
open Store

section

theorem nodesUntil_sim (ow : Bool) : ∀ (L : List (NodeKey × Node)) (m : AMap NodeKey Node),
    (∃ m', insertNodes ow L m = .ok m' ∧ insertNodesUntil ow L m = (m', none)) ∨
    (∃ e m', insertNodes ow L m = .error e ∧ insertNodesUntil ow L m = (m', some e)) := by
  intro L
  induction L with
  | nil => intro m; exact .inl ⟨m, rfl, rfl⟩
  | cons e L ih =>
    obtain ⟨k, n⟩ := e
    intro m
    unfold insertNodes insertNodesUntil
    split
    · exact .inr ⟨_, _, rfl, rfl⟩
    · exact ih _

theorem insertNodes_free : ∀ (L : List (NodeKey × Node)) (m m' : AMap NodeKey Node), insertNodes false L m = .ok m' →
    ∀ e ∈ L, m.get? e.1 = none := by
  intro L m m' h e he
  cases hg : m.get? e.1 with
  | none => rfl
  | some n =>
    obtain ⟨msg, h'⟩ := insertNodes_taken (k := e.1) L m ⟨e.2, he⟩ (by rw [hg]; rfl)
    rw [h] at h'; cases h'

/-- The order of the entries does not matter for whether the write succeeds and for what it then leaves. -/
theorem insertNodes_order {ow : Bool} {L L' : List (NodeKey × Node)} {m m' : AMap NodeKey Node} (hp : L.Perm L') (hn : AMap.NodupKeys L)
    (h : insertNodes ow L m = .ok m') : ∃ m'', insertNodes ow L' m = .ok m'' ∧ ∀ k, m''.get? k = m'.get? k := by
  have hn' : AMap.NodupKeys L' := (hp.map Prod.fst).nodup_iff.1 hn
  have hget : ∀ k, AMap.get? L' k = AMap.get? L k := by
    intro k
    apply Option.ext
    intro n
    constructor
    · intro h; exact AMap.get?_of_mem hn (hp.mem_iff.2 (AMap.mem_of_get? h))
    · intro h; exact AMap.get?_of_mem hn' (hp.mem_iff.1 (AMap.mem_of_get? h))
  have hm := insertNodes_inv ow L m m' h
  have h2 : insertNodes ow L' m = .ok (AMap.extend m L') := by
    cases ow with
    | true => exact insertNodes_ow L' m
    | false => exact insertNodes_ok false L' m hn' (fun e he => insertNodes_free L m m' h e (hp.mem_iff.2 he))
  refine ⟨_, h2, fun k => ?_⟩
  rw [hm, AMap.get?_extend _ hn', AMap.get?_extend _ hn, hget]

theorem valuesUntil_sim : ∀ (L : List ((Version × KeyHash) × Option Value)) (vh : AMap KeyHash (List (Version × Option Value))),
    (∃ vh', insertValues L vh = .ok vh' ∧ insertValuesUntil L vh = (vh', none)) ∨
    (∃ e vh', insertValues L vh = .error e ∧ insertValuesUntil L vh = (vh', some e)) := by
  intro L
  induction L with
  | nil => intro vh; exact .inl ⟨vh, rfl, rfl⟩
  | cons e L ih =>
    obtain ⟨⟨v, k⟩, x⟩ := e
    intro vh
    unfold insertValues insertValuesUntil
    cases h : putValue vh v k x with
    | ok vh' => exact ih vh'
    | error e => exact .inr ⟨_, _, rfl, rfl⟩

theorem staleUntil_sim : ∀ (L st : List StaleNodeIndex),
    (∃ st', insertStale L st = .ok st' ∧ insertStaleUntil L st = (st', none)) ∨
    (∃ e st', insertStale L st = .error e ∧ insertStaleUntil L st = (st', some e)) := by
  intro L
  induction L with
  | nil => intro st; exact .inl ⟨st, rfl, rfl⟩
  | cons i L ih =>
    intro st
    unfold insertStale insertStaleUntil
    split
    · exact .inr ⟨_, _, rfl, rfl⟩
    · exact ih _

theorem insertStale_iff : ∀ (L st : List StaleNodeIndex),
    insertStale L st = .ok (st ++ L) ↔ L.Nodup ∧ ∀ i ∈ L, i ∉ st := by
  intro L
  induction L with
  | nil => intro st; simp [insertStale]
  | cons i L ih =>
    intro st
    unfold insertStale
    by_cases h : i ∈ st
    · rw [if_pos h]
      constructor
      · intro h; cases h
      · rintro ⟨-, h2⟩; exact absurd h (h2 i (by simp))
    · rw [if_neg h, show st ++ i :: L = (st ++ [i]) ++ L by simp, ih, List.nodup_cons]
      constructor
      · rintro ⟨h1, h2⟩
        refine ⟨⟨fun hi => h2 i hi (by simp), h1⟩, fun j hj hc => ?_⟩
        rcases List.mem_cons.1 hj with rfl | hj
        · exact h hc
        · exact h2 j hj (List.mem_append_left _ hc)
      · rintro ⟨⟨h0, h1⟩, h2⟩
        refine ⟨h1, fun j hj hc => ?_⟩
        rcases List.mem_append.1 hc with hc | hc
        · exact h2 j (List.mem_cons_of_mem _ hj) hc
        · rw [List.mem_singleton] at hc
          subst hc; exact h0 hj

theorem insertStale_order {L L' st st' : List StaleNodeIndex} (hp : L.Perm L') (h : insertStale L st = .ok st') :
    insertStale L' st = .ok (st ++ L') := by
  rw [insertStale_inv _ _ _ h] at h
  obtain ⟨h1, h2⟩ := (insertStale_iff L st).1 h
  exact (insertStale_iff L' st).2 ⟨hp.nodup_iff.1 h1, fun i hi => h2 i (hp.mem_iff.2 hi)⟩

/-- The two models of the call agree. -/
theorem writeUntil_ok {s s' : Store} {b : TreeUpdateBatch} (hn : b.nodeBatch.nodes.NodupKeys) (h : s.writeTreeUpdateBatch b = .ok s') :
    (s.writeUntil b).2 = none ∧ SameStore (s.writeUntil b).1 s' ∧ (s.writeUntil b).1.preimages = s'.preimages ∧
      (s.writeUntil b).1.allowOverwrite = s'.allowOverwrite := by
  unfold Store.writeTreeUpdateBatch Store.writeNodeBatch at h
  obtain ⟨s1, hs1, hs2⟩ := bind_ok_inv h
  obtain ⟨ns, hns, hs3⟩ := bind_ok_inv hs1
  obtain ⟨vs, hvs, hs4⟩ := bind_ok_inv hs3
  obtain ⟨st, hst, hs5⟩ := bind_ok_inv hs2
  cases hs4
  cases hs5
  dsimp only at hst
  obtain ⟨ns', g1, g2⟩ := insertNodes_order (L' := b.nodeBatch.nodes.mergeSort nodeKeyLe) (List.mergeSort_perm _ _).symm hn hns
  have g3 := insertStale_order (L' := b.staleNodeIndexBatch.mergeSort staleLe) (List.mergeSort_perm _ _).symm hst
  have e1 : insertNodesUntil s.allowOverwrite (b.nodeBatch.nodes.mergeSort nodeKeyLe) s.nodes = (ns', none) := by
    rcases nodesUntil_sim s.allowOverwrite (b.nodeBatch.nodes.mergeSort nodeKeyLe) s.nodes with ⟨m', a, b⟩ | ⟨e, m', a, b⟩
    · rw [a] at g1; cases g1; exact b
    · rw [a] at g1; cases g1
  have e2 : insertValuesUntil (b.nodeBatch.values.mergeSort valueKeyLe) s.values = (vs, none) := by
    rcases valuesUntil_sim (b.nodeBatch.values.mergeSort valueKeyLe) s.values with ⟨m', a, b⟩ | ⟨e, m', a, b⟩
    · rw [a] at hvs; cases hvs; exact b
    · rw [a] at hvs; cases hvs
  have e3 : insertStaleUntil (b.staleNodeIndexBatch.mergeSort staleLe) s.stale = (s.stale ++ b.staleNodeIndexBatch.mergeSort staleLe, none) := by
    rcases staleUntil_sim (b.staleNodeIndexBatch.mergeSort staleLe) s.stale with ⟨m', a, b⟩ | ⟨e, m', a, b⟩
    · rw [a] at g3; cases g3; exact b
    · rw [a] at g3; cases g3
  have : s.writeUntil b = ({ s with nodes := ns', values := vs, stale := s.stale ++ b.staleNodeIndexBatch.mergeSort staleLe }, none) := by
    unfold writeUntil
    rw [e1]
    dsimp only
    rw [e2]
    dsimp only
    rw [e3]
  rw [this]
  refine ⟨rfl, ⟨g2, fun x => ?_, fun k => rfl⟩, rfl, rfl⟩
  dsimp only
  rw [insertStale_inv _ _ _ hst, List.mem_append, List.mem_append, (List.mergeSort_perm _ _).mem_iff]

theorem writeUntil_error {s : Store} {b : TreeUpdateBatch} {e : Err} (hn : b.nodeBatch.nodes.NodupKeys)
    (h : s.writeTreeUpdateBatch b = .error e) : (s.writeUntil b).2 ≠ none := by
  intro hc
  suffices ∃ s', s.writeTreeUpdateBatch b = .ok s' by
    obtain ⟨s', h'⟩ := this
    rw [h] at h'; cases h'
  unfold writeUntil at hc
  rcases nodesUntil_sim s.allowOverwrite (b.nodeBatch.nodes.mergeSort nodeKeyLe) s.nodes with ⟨ns, a1, a2⟩ | ⟨e, ns, a1, a2⟩
  · rw [a2] at hc
    dsimp only at hc
    rcases valuesUntil_sim (b.nodeBatch.values.mergeSort valueKeyLe) s.values with ⟨vs, b1, b2⟩ | ⟨e, vs, b1, b2⟩
    · rw [b2] at hc
      dsimp only at hc
      rcases staleUntil_sim (b.staleNodeIndexBatch.mergeSort staleLe) s.stale with ⟨st, c1, c2⟩ | ⟨e, st, c1, c2⟩
      · obtain ⟨ns', g1, -⟩ := insertNodes_order (L' := b.nodeBatch.nodes) (List.mergeSort_perm _ _)
          (((List.mergeSort_perm b.nodeBatch.nodes nodeKeyLe).map Prod.fst).nodup_iff.2 hn) a1
        have g3 := insertStale_order (L' := b.staleNodeIndexBatch) (List.mergeSort_perm _ _) c1
        refine ⟨{ s with nodes := ns', values := vs, stale := s.stale ++ b.staleNodeIndexBatch }, ?_⟩
        unfold Store.writeTreeUpdateBatch Store.writeNodeBatch
        rw [g1, ok_bind, b1]
        show (insertStale b.staleNodeIndexBatch s.stale >>= _) = _
        rw [g3]
        rfl
      · rw [c2] at hc; cases hc
    · rw [b2] at hc; cases hc
  · rw [a2] at hc; cases hc

/-! ### Whatever happens, only entries of the batch have been written -/

theorem nodesUntil_partly (ow : Bool) : ∀ (L : List (NodeKey × Node)) (m : AMap NodeKey Node) (k : NodeKey),
    (insertNodesUntil ow L m).1.get? k = m.get? k ∨ ∃ n, (k, n) ∈ L ∧ (insertNodesUntil ow L m).1.get? k = some n := by
  intro L
  induction L with
  | nil => intro m k; exact .inl rfl
  | cons e L ih =>
    obtain ⟨k', n'⟩ := e
    intro m k
    have hins : (m.insert k' n').get? k = m.get? k ∨ ∃ n, (k, n) ∈ (k', n') :: L ∧ (m.insert k' n').get? k = some n := by
      rw [AMap.get?_insert]
      by_cases h : k' = k
      · subst h; rw [if_pos rfl]; exact .inr ⟨n', by simp, rfl⟩
      · rw [if_neg h]; exact .inl rfl
    unfold insertNodesUntil
    split
    · exact hins
    · rcases ih (m.insert k' n') k with h | ⟨n, h1, h2⟩
      · rcases hins with h' | ⟨n, h1, h2⟩
        · exact .inl (h.trans h')
        · exact .inr ⟨n, h1, h.trans h2⟩
      · exact .inr ⟨n, List.mem_cons_of_mem _ h1, h2⟩

/-- What a reader finds in a value history. -/
def findAt (hist : List (Version × Option Value)) (v : Version) : Option Value :=
  match hist.reverse.find? (fun e => decide (e.1 ≤ v)) with
  | some e => e.2
  | none => none

theorem getValueOption_findAt (s : Store) (v : Version) (k : KeyHash) : s.getValueOption v k = findAt (histOf s.values k) v := by
  unfold Store.getValueOption Store.histOf findAt
  cases s.values.get? k <;> rfl

theorem findAt_snoc {hist : List (Version × Option Value)} {w v : Version} {x : Option Value} (h : v < w) :
    findAt (hist ++ [(w, x)]) v = findAt hist v := by
  unfold findAt
  rw [List.reverse_append, List.reverse_singleton, List.singleton_append, List.find?_cons_of_neg (by simpa using h)]

theorem histOf_insert (vh : AMap KeyHash (List (Version × Option Value))) (k k' : KeyHash) (l) :
    histOf (vh.insert k l) k' = if k = k' then l else histOf vh k' := by
  unfold histOf
  rw [AMap.get?_insert]
  split <;> rfl

theorem putValue_findAt {vh vh' : AMap KeyHash (List (Version × Option Value))} {w : Version} {k : KeyHash} {x : Option Value}
    (h : putValue vh w k x = .ok vh') {k' : KeyHash} {v : Version} (hv : k = k' → v < w) :
    findAt (histOf vh' k') v = findAt (histOf vh k') v := by
  have fin : ∀ l, vh' = vh.insert k l → (k = k' → findAt l v = findAt (histOf vh k) v) → findAt (histOf vh' k') v = findAt (histOf vh k') v := by
    intro l he hl
    rw [he, histOf_insert]
    by_cases hk : k = k'
    · rw [if_pos hk, hl hk, hk]
    · rw [if_neg hk]
  unfold putValue at h
  cases hg : vh.get? k with
  | none =>
    rw [hg] at h
    cases h
    refine fin _ rfl (fun hk => ?_)
    have : histOf vh k = [] := by unfold histOf; rw [hg]; rfl
    rw [this]
    exact findAt_snoc (hist := []) (hv hk)
  | some hist =>
    rw [hg] at h
    have hh : histOf vh k = hist := by unfold histOf; rw [hg]; rfl
    dsimp only at h
    cases hl : hist.getLast? with
    | none =>
      rw [hl] at h
      cases h
      exact fin _ rfl (fun hk => by rw [hh]; exact findAt_snoc (hv hk))
    | some last =>
      obtain ⟨lv, lx⟩ := last
      rw [hl] at h
      dsimp only at h
      split at h
      · cases h
      · split at h
        · rename_i h1 h2
          cases h
          subst h2
          refine fin _ rfl (fun hk => ?_)
          rw [hh, findAt_snoc (hv hk)]
          have : hist = hist.dropLast ++ [(w, lx)] := by
            have hne : hist ≠ [] := by rintro rfl; cases hl
            rw [List.getLast?_eq_some_getLast hne] at hl
            conv => lhs; rw [← List.dropLast_concat_getLast hne, Option.some.inj hl]
          rw [this, findAt_snoc (hv hk)]
          simp
        · cases h
          exact fin _ rfl (fun hk => by rw [hh]; exact findAt_snoc (hv hk))

theorem valuesUntil_findAt : ∀ (L : List ((Version × KeyHash) × Option Value)) (vh : AMap KeyHash (List (Version × Option Value)))
    {k : KeyHash} {v : Version}, (∀ w x, ((w, k), x) ∈ L → v < w) →
    findAt (histOf (insertValuesUntil L vh).1 k) v = findAt (histOf vh k) v := by
  intro L
  induction L with
  | nil => intro vh k v _; rfl
  | cons e L ih =>
    obtain ⟨⟨w, k'⟩, x⟩ := e
    intro vh k v h
    unfold insertValuesUntil
    cases hp : putValue vh w k' x with
    | error e => rfl
    | ok vh' =>
      dsimp only
      rw [ih vh' (fun w x hm => h w x (List.mem_cons_of_mem _ hm))]
      exact putValue_findAt hp (fun hk => by subst hk; exact h w x (by simp))

theorem writeUntil_partly (s : Store) (b : TreeUpdateBatch) (hn : b.nodeBatch.nodes.NodupKeys) :
    PartlyWritten b.nodeBatch (s.writeUntil b).1.reader s.reader := by
  have hnodes : (s.writeUntil b).1.nodes = (insertNodesUntil s.allowOverwrite (b.nodeBatch.nodes.mergeSort nodeKeyLe) s.nodes).1 := by
    unfold writeUntil
    cases insertNodesUntil s.allowOverwrite (b.nodeBatch.nodes.mergeSort nodeKeyLe) s.nodes with
    | mk ns e =>
      cases e with
      | some e => rfl
      | none =>
        dsimp only
        cases insertValuesUntil (b.nodeBatch.values.mergeSort valueKeyLe) s.values with
        | mk vs e => cases e <;> rfl
  have hvals : (s.writeUntil b).1.values = s.values ∨
      (s.writeUntil b).1.values = (insertValuesUntil (b.nodeBatch.values.mergeSort valueKeyLe) s.values).1 := by
    unfold writeUntil
    cases insertNodesUntil s.allowOverwrite (b.nodeBatch.nodes.mergeSort nodeKeyLe) s.nodes with
    | mk ns e =>
      cases e with
      | some e => exact .inl rfl
      | none =>
        dsimp only
        cases insertValuesUntil (b.nodeBatch.values.mergeSort valueKeyLe) s.values with
        | mk vs e => cases e <;> exact .inr rfl
  refine ⟨fun k => ?_, fun v k hv => ?_⟩
  · show Except.ok ((s.writeUntil b).1.nodes.get? k) = Except.ok (s.nodes.get? k) ∨ ∃ n, _ ∧ Except.ok ((s.writeUntil b).1.nodes.get? k) = _
    rw [hnodes]
    rcases nodesUntil_partly s.allowOverwrite (b.nodeBatch.nodes.mergeSort nodeKeyLe) s.nodes k with h | ⟨n, h1, h2⟩
    · exact .inl (by rw [h])
    · exact .inr ⟨n, AMap.get?_of_mem hn ((List.mergeSort_perm _ _).mem_iff.1 h1), by rw [h2]⟩
  · show Except.ok ((s.writeUntil b).1.getValueOption v k) = Except.ok (s.getValueOption v k)
    rw [getValueOption_findAt, getValueOption_findAt]
    congr 1
    rcases hvals with h | h
    · rw [h]
    · rw [h]
      refine valuesUntil_findAt _ _ (fun w x hm => ?_)
      have hm := (List.mergeSort_perm _ _).mem_iff.1 hm
      cases hg : b.nodeBatch.values.get? (w, k) with
      | some y => exact hv w y hg
      | none => exact absurd (List.mem_map.2 ⟨_, hm, rfl⟩) ((AMap.get?_eq_none_iff _ _).1 hg)

/-! ### The root comes first -/

theorem nodeKeyLe_total (a b : NodeKey × Node) : (nodeKeyLe a b || nodeKeyLe b a) = true := by
  unfold nodeKeyLe
  rcases Nat.lt_trichotomy a.1.version b.1.version with h | h | h
  · simp [h]
  · rcases Nat.lt_trichotomy a.1.path.length b.1.path.length with h' | h' | h'
    · simp [h, h']
    · have := List.le_total (a.1.path.map (·.val)) (b.1.path.map (·.val))
      simpa [h, h'] using this
    · simp [h, h']
  · simp [h]

theorem nodeKeyLe_trans (a b c : NodeKey × Node) (h1 : nodeKeyLe a b = true) (h2 : nodeKeyLe b c = true) : nodeKeyLe a c = true := by
  unfold nodeKeyLe at *
  simp only [Bool.or_eq_true, Bool.and_eq_true, decide_eq_true_eq] at *
  rcases h1 with h1 | ⟨h1, h1' | ⟨h1', h1''⟩⟩ <;> rcases h2 with h2 | ⟨h2, h2' | ⟨h2', h2''⟩⟩
  · left; omega
  · left; omega
  · left; omega
  · left; omega
  · right; exact ⟨by omega, .inl (by omega)⟩
  · right; exact ⟨by omega, .inl (by omega)⟩
  · left; omega
  · right; exact ⟨by omega, .inl (by omega)⟩
  · right; exact ⟨by omega, .inr ⟨by omega, List.le_trans h1'' h2''⟩⟩

theorem nodeKeyLe_root {e : NodeKey × Node} {V : Version} {n : Node} (hV : V ≤ e.1.version) (h : nodeKeyLe e (⟨V, []⟩, n) = true) :
    e.1 = ⟨V, []⟩ := by
  unfold nodeKeyLe at h
  simp only [Bool.or_eq_true, Bool.and_eq_true, decide_eq_true_eq] at h
  obtain ⟨⟨v, q⟩, m⟩ := e
  dsimp only at *
  rcases h with h | ⟨h, h' | ⟨h', -⟩⟩
  · omega
  · simp at h'
  · rw [List.length_eq_zero_iff.1 h', h]

/-- The root of the first version of the batch is visited first. -/
theorem sorted_root_first {L : List (NodeKey × Node)} {V : Version} {n : Node} (hn : AMap.NodupKeys L) (hr : AMap.get? L ⟨V, []⟩ = some n)
    (hV : ∀ e ∈ L, V ≤ e.1.version) : ∃ rest, L.mergeSort nodeKeyLe = (⟨V, []⟩, n) :: rest := by
  have hperm := List.mergeSort_perm L nodeKeyLe
  have hsorted := List.pairwise_mergeSort nodeKeyLe_trans nodeKeyLe_total L
  have hm := hperm.mem_iff.2 (AMap.mem_of_get? hr)
  cases hL : L.mergeSort nodeKeyLe with
  | nil => rw [hL] at hm; cases hm
  | cons e rest =>
    rw [hL] at hm hsorted hperm
    refine ⟨rest, ?_⟩
    have hroot : e.1 = ⟨V, []⟩ := by
      rcases List.mem_cons.1 hm with h | h
      · rw [← h]
      · exact nodeKeyLe_root (hV e (hperm.mem_iff.1 (by simp))) ((List.pairwise_cons.1 hsorted).1 _ h)
    have he : e ∈ L := hperm.mem_iff.1 (by simp)
    have := AMap.get?_of_mem hn (k := e.1) (v := e.2) he
    rw [hroot, hr] at this
    obtain ⟨k, m⟩ := e
    dsimp only at hroot this
    rw [hroot, ← Option.some.inj this]

/-- A write refused at the root has replaced the root and nothing else. -/
theorem writeUntil_root_taken {s : Store} {b : TreeUpdateBatch} {V : Version} {n : Node} (how : s.allowOverwrite = false)
    (hn : b.nodeBatch.nodes.NodupKeys) (hr : b.nodeBatch.nodes.get? ⟨V, []⟩ = some n)
    (hV : ∀ k m, b.nodeBatch.nodes.get? k = some m → V ≤ k.version) (ht : (s.nodes.get? ⟨V, []⟩).isSome) :
    ∃ msg, s.writeUntil b = ({ s with nodes := s.nodes.insert ⟨V, []⟩ n }, some (.panic msg)) := by
  obtain ⟨rest, h⟩ := sorted_root_first hn hr (fun e he => hV e.1 e.2 (AMap.get?_of_mem hn he))
  refine ⟨"assert_eq!(replaced, None)", ?_⟩
  unfold writeUntil
  rw [h, how]
  unfold insertNodesUntil
  rw [if_pos (by simp [ht])]

theorem purgeUntil_sim : ∀ (L : List StaleNodeIndex) (s : Store),
    (∃ s', purgeLoop L s = .ok s' ∧ purgeLoopUntil L s = (s', none)) ∨
    (∃ e s', purgeLoop L s = .error e ∧ purgeLoopUntil L s = (s', some e)) := by
  intro L
  induction L with
  | nil => intro s; exact .inl ⟨s, rfl, rfl⟩
  | cons i L ih =>
    intro s
    unfold purgeLoop purgeLoopUntil
    cases s.nodes.get? i.nodeKey with
    | none => exact .inr ⟨_, _, rfl, rfl⟩
    | some n => exact ih _

/-- Visiting the stale entries in B-tree order makes no difference on a store made by a history. -/
theorem SysInv.purgeUntil {H : Hasher} {s : Store} {hist : List ValueSet} {low : Nat} (h : SysInv H s hist low) (r : Version) :
    ∃ s' s'', s.purgeStaleNodes r = .ok s' ∧ s.purgeUntil r = (s'', none) ∧ SameStore s'' s' := by
  obtain ⟨⟨M, W, hI, -⟩, -⟩ := h
  have hperm := List.mergeSort_perm (s.stale.filter (fun i => decide (i.staleSince ≤ r))) staleLe
  have hnd := hI.staleNodup.sublist ((List.filter_sublist (p := fun i => decide (i.staleSince ≤ r)) (l := s.stale)).map StaleNodeIndex.nodeKey)
  have hex : ∀ i ∈ s.stale.filter (fun i => decide (i.staleSince ≤ r)), ∃ nd, s.nodes.get? i.nodeKey = some nd := by
    intro i hi
    exact (hI.stale i (List.mem_filter.1 hi).1).2.2.1
  obtain ⟨s', a1, a2, -, -, a5, -, a7⟩ := Store.purgeLoop_ok _ s hnd hex
  obtain ⟨s'', b1, b2, -, -, b5, -, b7⟩ := Store.purgeLoop_ok _ s ((hperm.map StaleNodeIndex.nodeKey).nodup_iff.2 hnd)
    (fun i hi => hex i (hperm.mem_iff.1 hi))
  refine ⟨s', s'', a1, ?_, fun k => ?_, fun x => ?_, fun k => by rw [a2, b2]⟩
  · unfold Store.purgeUntil
    rcases purgeUntil_sim ((s.stale.filter (fun i => decide (i.staleSince ≤ r))).mergeSort staleLe) s with ⟨m, c1, c2⟩ | ⟨e, m, c1, c2⟩
    · rw [b1] at c1; cases c1; exact c2
    · rw [b1] at c1; cases c1
  · rw [a7, b7]
    simp only [hperm.mem_iff]
  · rw [a5, b5]
    simp only [List.mem_filter, hperm.mem_iff]

end
end Jmt
