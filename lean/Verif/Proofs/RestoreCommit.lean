import Verif.Proofs.RestoreChunk
import Verif.Proofs.Values
/-!
# Chunks: receiving keys and writing the frozen nodes
-/
namespace Jmt
open Spec (Entry)
open Store

/-- The receiver `r` has received `gp`, of which `p0` is in the store `s`; the snapshot is `Ms`.  Values of pairs in `E` may be in the store
although their keys have not been accepted (after an interrupted write). -/
structure RInv (H : Hasher) (Ms : List Entry) (E : List (KeyHash × Value)) (w : Version) (root : Digest) (s : Store) (p0 : List (KeyHash × Value))
    (r : Restore) (gp : List (KeyHash × Value)) : Prop where
  nodes : InvN H Ms w s.nodes (entriesOf H p0) r (entriesOf H gp)
  root : r.expectedRoot = root
  version : r.version = w
  vnodup : AMap.NodupKeys r.frozenNodes.values
  frozen : ∀ v k x, r.frozenNodes.values.get? (v, k) = some x → v = w ∧ ∃ y, x = some y ∧ (k, y) ∈ gp
  known : ∀ e ∈ gp, (∃ x, r.frozenNodes.values.get? (w, e.1) = some x) ∨ e ∈ p0
  stored : ∀ e ∈ p0, histOf s.values e.1 = [(w, some e.2)]
  absent : ∀ k, k ∉ p0.map Prod.fst → histOf s.values k = [] ∨ ∃ x, (k, x) ∈ E ∧ histOf s.values k = [(w, some x)]
  snodup : AMap.NodupKeys s.nodes

section
variable {H : Hasher} {Ms : List Entry} {w : Version} {root : Digest} {s : Store} {E p0 gp : List (KeyHash × Value)}
  {r r' : Restore} {k k' : KeyHash} {x : Value}

theorem entriesOf_append (a b : List (KeyHash × Value)) : entriesOf H (a ++ b) = entriesOf H a ++ entriesOf H b := by
  simp [entriesOf]

theorem entriesOf_last : (entriesOf H gp).getLast? = gp.getLast?.map (fun e => (e.1, H.hash e.2)) := by
  unfold entriesOf; rw [List.getLast?_map]

theorem entriesOf_keys : (entriesOf H gp).map Prod.fst = gp.map Prod.fst := by
  simp [entriesOf]

theorem RInv.prevLeaf (h : RInv H Ms E w root s p0 r gp) : r.previousLeaf = gp.getLast?.map (fun e => ⟨e.1, H.hash e.2⟩) := by
  cases hl : gp.getLast? with
  | none =>
    rw [List.getLast?_eq_none_iff] at hl
    subst hl
    exact (h.nodes.nil rfl).2.1
  | some e => exact (h.nodes.last e.1 (H.hash e.2) (by rw [entriesOf_last, hl]; rfl)).1

theorem panics_ok {α : Type} {e : Except Err α} {a : α} : Restore.panics e = .ok a ↔ e = .ok a := by
  unfold Restore.panics
  constructor
  · intro h
    split at h
    · cases h
    · cases h
    · exact h
  · intro h; rw [h]

theorem panics_err {α : Type} {e : Except Err α} {er : Err} (h : Restore.panics e = .error er) : ∃ s, er = .panic s := by
  unfold Restore.panics at h
  split at h
  · cases h; exact ⟨_, rfl⟩
  · cases h; exact ⟨_, rfl⟩
  · cases h

theorem addEntry_err {er : Err} (h : Restore.addEntry H r k x = .error er) : ∃ s, er = .panic s := by
  unfold Restore.addEntry at h
  cases hp : Restore.panics ((r.insertValue k x).addOne H k (H.hash x)) with
  | error e =>
    rw [hp] at h
    cases h
    exact panics_err hp
  | ok r1 => rw [hp, ok_bind] at h; cases h

theorem InvN.insertValue (h : InvN H Ms w s.nodes (entriesOf H p0) r (entriesOf H gp)) :
    InvN H Ms w s.nodes (entriesOf H p0) (r.insertValue k x) (entriesOf H gp) := by
  refine ⟨h.asc, h.auth0, h.nodup, h.store, fun hn => ?_, fun k vh hl => ?_⟩
  · obtain ⟨a, b, c, d, e⟩ := h.nil hn
    exact ⟨a, b, c, fun k => ⟨(d k).version, (d k).lt, (d k).nodes⟩, e⟩
  · obtain ⟨a, n, hp, hc⟩ := h.last k vh hl
    exact ⟨a, n, ⟨hp.version, hp.lt, hp.nodes⟩, hc⟩

theorem addEntry_inv (h : RInv H Ms E w root s p0 r gp) (hlt : ∀ e, gp.getLast? = some e → e.1.val < k.val)
    (hadd : Restore.addEntry H r k x = .ok r') : RInv H Ms E w root s p0 r' (gp ++ [(k, x)]) ∧ r'.numKeysReceived ≠ 0 := by
  unfold Restore.addEntry at hadd
  obtain ⟨r1, h1, h2⟩ := bind_ok_inv hadd
  rw [panics_ok] at h1
  cases h2
  have hlt' : ∀ k1 vh, (entriesOf H gp).getLast? = some (k1, vh) → k1.val < k.val := by
    intro k1 vh hl
    rw [entriesOf_last, Option.map_eq_some_iff] at hl
    obtain ⟨e, he, h3⟩ := hl
    cases h3
    exact hlt e he
  obtain ⟨hN, hv, hr⟩ := invN_add h.nodes.insertValue hlt' h1
  have hw : r.version = w := h.version
  have hval : r1.frozenNodes.values = r.frozenNodes.values.insert (w, k) (some x) := by
    rw [hv, ← hw]; rfl
  refine ⟨⟨?_, ?_, ?_, ?_, ?_, ?_, h.stored, h.absent, h.snodup⟩, Nat.succ_ne_zero _⟩
  · rw [entriesOf_append]
    exact hN
  · show r1.expectedRoot = root
    rw [hr]; exact h.root
  · obtain ⟨-, n, hp, -⟩ := hN.last k (H.hash x) (by simp)
    exact hp.version
  · show AMap.NodupKeys r1.frozenNodes.values
    rw [hval]; exact h.vnodup.insert _ _
  · intro v k1 x1 hx
    change r1.frozenNodes.values.get? (v, k1) = some x1 at hx
    rw [hval, AMap.get?_insert] at hx
    split at hx
    · rename_i he
      cases he
      cases hx
      exact ⟨rfl, x, rfl, by simp⟩
    · obtain ⟨a, y, b, c⟩ := h.frozen v k1 x1 hx
      exact ⟨a, y, b, by simp [c]⟩
  · intro e he
    change (∃ y, r1.frozenNodes.values.get? (w, e.1) = some y) ∨ _
    rw [hval, AMap.get?_insert]
    split
    · exact .inl ⟨_, rfl⟩
    · rename_i hne
      rcases List.mem_append.1 he with he | he
      · exact h.known e he
      · rw [List.mem_singleton.1 he] at hne; exact absurd rfl hne

theorem addEntry_next (h : RInv H Ms E w root s p0 r gp) (hMs : Asc Ms) (hauth : entriesOf H (gp ++ [(k, x)]) <+: Ms) :
    ∃ r', Restore.addEntry H r k x = .ok r' := by
  rw [entriesOf_append] at hauth
  obtain ⟨r1, h1⟩ := addOne_next (h.nodes.insertValue (k := k) (x := x)) hMs hauth
  unfold Restore.addEntry
  rw [panics_ok.2 h1, ok_bind]
  exact ⟨_, rfl⟩

theorem prev_any (h : RInv H Ms E w root s p0 r gp) :
    r.previousLeaf.any (fun l => !decide (l.keyHash.val < k.val)) = true ↔ ¬ ∀ l, gp.getLast?.map Prod.fst = some l → l.val < k.val := by
  rw [h.prevLeaf]
  cases hl : gp.getLast? with
  | none => simp
  | some e => simp

theorem addKeys_inv : ∀ (chunk : List (KeyHash × Value)) {r r' : Restore} {gp : List (KeyHash × Value)} {res : Except Err Unit},
    RInv H Ms E w root s p0 r gp → Restore.addKeys H chunk r = (r', res) → (∀ m, res ≠ .error (.panic m)) →
    RInv H Ms E w root s p0 r' (gp ++ Spec.ascending (gp.getLast?.map Prod.fst) chunk) ∧
    (res = .ok () → Spec.ascending (gp.getLast?.map Prod.fst) chunk = chunk ∧ (chunk ≠ [] → r'.numKeysReceived ≠ 0)) := by
  intro chunk
  induction chunk with
  | nil =>
    intro r r' gp res h hk _
    cases hk
    simp only [Spec.ascending, List.append_nil]
    exact ⟨h, fun _ => ⟨trivial, fun hc => absurd rfl hc⟩⟩
  | cons e chunk ih =>
    obtain ⟨k, x⟩ := e
    intro r r' gp res h hk hres
    unfold Restore.addKeys at hk
    unfold Spec.ascending
    by_cases hc : r.previousLeaf.any (fun l => !decide (l.keyHash.val < k.val)) = true
    · rw [if_pos hc] at hk
      rw [if_neg ((prev_any h).1 hc)]
      cases hk
      rw [List.append_nil]
      exact ⟨h, fun hc => by cases hc⟩
    · rw [if_neg hc] at hk
      have hlt := Decidable.not_not.1 (fun hn => hc ((prev_any h).2 hn))
      rw [if_pos hlt]
      cases ha : Restore.addEntry H r k x with
      | error er =>
        rw [ha] at hk
        cases hk
        obtain ⟨m, hm⟩ := addEntry_err ha
        exact absurd (by rw [hm]) (hres m)
      | ok r1 =>
        rw [ha] at hk
        simp only [] at hk
        obtain ⟨h1, hn1⟩ := addEntry_inv h (fun e he => hlt e.1 (by rw [he]; rfl)) ha
        obtain ⟨h2, h3⟩ := ih h1 hk hres
        have hlast : (gp ++ [(k, x)]).getLast?.map Prod.fst = some k := by simp
        rw [hlast, List.append_assoc, List.singleton_append] at h2
        rw [hlast] at h3
        refine ⟨h2, fun hr => ⟨by rw [(h3 hr).1], fun _ => ?_⟩⟩
        by_cases hch : chunk = []
        · subst hch
          cases hk
          exact hn1
        · exact (h3 hr).2 hch

theorem asc_last_lt {gp : List (KeyHash × Value)} (h : Asc (entriesOf H (gp ++ [(k, x)]))) : ∀ l, gp.getLast?.map Prod.fst = some l → l.val < k.val := by
  intro l hl
  rw [Option.map_eq_some_iff] at hl
  obtain ⟨e, he, rfl⟩ := hl
  rw [entriesOf_append] at h
  unfold Asc at h
  rw [List.pairwise_append] at h
  exact h.2.2 (e.1, H.hash e.2) (List.mem_map.2 ⟨e, List.mem_of_getLast? he, rfl⟩) (k, H.hash x) (by simp [entriesOf])

/-- An honest chunk is received. -/
theorem addKeys_next (hMs : Asc Ms) : ∀ (chunk : List (KeyHash × Value)) {r : Restore} {gp : List (KeyHash × Value)},
    RInv H Ms E w root s p0 r gp → entriesOf H (gp ++ chunk) <+: Ms →
    ∃ r', Restore.addKeys H chunk r = (r', .ok ()) := by
  intro chunk
  induction chunk with
  | nil => intro r gp _ _; exact ⟨r, rfl⟩
  | cons e chunk ih =>
    obtain ⟨k, x⟩ := e
    intro r gp h hauth
    have hauth1 : entriesOf H (gp ++ [(k, x)]) <+: Ms := by
      refine List.IsPrefix.trans ?_ hauth
      rw [show gp ++ (k, x) :: chunk = (gp ++ [(k, x)]) ++ chunk by simp, entriesOf_append _ chunk]
      exact List.prefix_append _ _
    have hlt := asc_last_lt (hMs.prefix hauth1)
    unfold Restore.addKeys
    rw [if_neg (fun hc => (prev_any h).1 hc hlt)]
    obtain ⟨r1, h1⟩ := addEntry_next h hMs hauth1
    rw [h1]
    simp only []
    exact ih (addEntry_inv h (fun e he => hlt e.1 (by rw [he]; rfl)) h1).1 (by simpa using hauth)

/-- Writing values of version `w` over values of version `w`. -/
theorem insertValues_at : ∀ (L : List ((Version × KeyHash) × Option Value)) (vh : AMap KeyHash (List (Version × Option Value))),
    AMap.NodupKeys L → (∀ e ∈ L, e.1.1 = w) → (∀ e ∈ L, histOf vh e.1.2 = [] ∨ ∃ y, histOf vh e.1.2 = [(w, y)]) →
    ∃ vh', insertValues L vh = .ok vh' ∧
      ∀ k, histOf vh' k = match AMap.get? L (w, k) with | some y => [(w, y)] | none => histOf vh k := by
  intro L
  induction L with
  | nil => intro vh _ _ _; exact ⟨vh, rfl, fun k => rfl⟩
  | cons e L ih =>
    obtain ⟨⟨v, k⟩, y⟩ := e
    intro vh hn hw hh
    have hv : v = w := hw ((v, k), y) (by simp)
    subst hv
    have hput : ∃ vh1, putValue vh v k y = .ok vh1 ∧ ∀ k', histOf vh1 k' = if k' = k then [(v, y)] else histOf vh k' := by
      have fin : ∀ k', histOf (vh.insert k [(v, y)]) k' = if k' = k then [(v, y)] else histOf vh k' := by
        intro k'
        unfold histOf
        rw [AMap.get?_insert]
        by_cases hk : k = k'
        · subst hk; simp
        · simp [hk, Ne.symm hk]
      unfold putValue
      rcases hh ((v, k), y) (by simp) with h | ⟨z, h⟩
      · unfold histOf at h
        cases hg : AMap.get? vh k with
        | none => exact ⟨_, rfl, fin⟩
        | some hist =>
          rw [hg] at h
          simp only [Option.getD_some] at h
          subst h
          exact ⟨_, rfl, fin⟩
      · unfold histOf at h
        cases hg : AMap.get? vh k with
        | none => rw [hg] at h; simp at h
        | some hist =>
          rw [hg] at h
          simp only [Option.getD_some] at h
          subst h
          simp only [List.getLast?_singleton, Nat.lt_irrefl, if_false, if_true, List.dropLast_singleton, List.nil_append]
          exact ⟨_, rfl, fin⟩
    obtain ⟨vh1, h1, h2⟩ := hput
    unfold AMap.NodupKeys at hn
    simp only [List.map_cons, List.nodup_cons] at hn
    have hne : ∀ e ∈ L, e.1.2 ≠ k := by
      intro e he hc
      apply hn.1
      have := hw e (by simp [he])
      refine List.mem_map.2 ⟨e, he, ?_⟩
      rw [← this, ← hc]
    obtain ⟨vh2, h3, h4⟩ := ih vh1 hn.2 (fun e he => hw e (by simp [he])) (fun e he => by
      rw [h2, if_neg (hne e he)]
      exact hh e (by simp [he]))
    refine ⟨vh2, ?_, fun k' => ?_⟩
    · unfold insertValues
      rw [h1, ok_bind]
      exact h3
    · rw [h4, h2]
      by_cases hk : k' = k
      · subst hk
        have : AMap.get? L (v, k') = none := (AMap.get?_eq_none_iff _ _).2 hn.1
        rw [this]
        simp [AMap.get?]
      · rw [if_neg hk]
        have : ¬ (v, k) = (v, k') := fun h => hk (by cases h; rfl)
        simp only [AMap.get?, if_neg this]

theorem entriesOf_key_prefix (h : entriesOf H p0 <+: entriesOf H gp) : p0.map Prod.fst <+: gp.map Prod.fst := by
  obtain ⟨t, ht⟩ := h
  refine ⟨t.map Prod.fst, ?_⟩
  rw [← entriesOf_keys (H := H), ← entriesOf_keys (H := H), ← ht, List.map_append]

theorem prefix_of_prefix_length_le' {α : Type} {a b c : List α} (h1 : a <+: c) (h2 : b <+: c) (h : a.length ≤ b.length) : a <+: b :=
  List.prefix_of_prefix_length_le h1 h2 h

theorem RInv.nodupKeys (h : RInv H Ms E w root s p0 r gp) : (gp.map Prod.fst).Nodup := by
  rw [← entriesOf_keys (H := H)]
  exact h.nodes.asc.nodup

/-- Writing the frozen nodes when what has been received is an initial segment of the snapshot. -/
theorem commit_inv (h : RInv H Ms E w root s p0 r gp) (h0 : r.numKeysReceived ≠ 0) (hauth : entriesOf H gp <+: Ms) :
    ∃ s', s.writeNodeBatch r.frozenNodes = .ok s' ∧
      RInv H Ms E w root s' gp { r with frozenNodes := ⟨[], []⟩ } gp ∧ s'.allowOverwrite = s.allowOverwrite := by
  have hne : gp ≠ [] := by
    intro hc
    subst hc
    exact h0 (h.nodes.nil rfl).1
  obtain ⟨e, he⟩ : ∃ e, gp.getLast? = some e := by
    cases hl : gp.getLast? with
    | none => exact absurd (List.getLast?_eq_none_iff.1 hl) hne
    | some e => exact ⟨e, rfl⟩
  have hle : (entriesOf H gp).getLast? = some (e.1, H.hash e.2) := by rw [entriesOf_last, he]; rfl
  obtain ⟨hpl, n, hp, hcase⟩ := h.nodes.last e.1 (H.hash e.2) hle
  obtain ⟨hr, hlen, hno⟩ : RReady (entriesOf H gp) e.1 (H.hash e.2) n ∧ (entriesOf H p0).length ≤ (entriesOf H gp).length ∧
      NodesOk H s.nodes r.frozenNodes.nodes (entriesOf H gp) w e.1 := by
    rcases hcase with hc | hc
    · exact absurd hc.1 h0
    · exact ⟨hc.2.1, hc.2.2.1, hc.2.2.2 hauth⟩
  have hpre : entriesOf H p0 <+: entriesOf H gp := List.prefix_of_prefix_length_le h.nodes.auth0 hauth hlen
  have hkeys := entriesOf_key_prefix hpre
  -- nodes
  have hn := insertNodes_ok s.allowOverwrite r.frozenNodes.nodes s.nodes h.nodes.nodup (fun e' he' => by
    have hg := (AMap.mem_iff_get? h.nodes.nodup).1 he'
    by_cases hpd : e'.1.version = w ∧ pending (entriesOf H gp) e.1 e'.1.path
    · rcases hno.yes _ hpd.2 with hy | hy
      · rw [← hpd.1] at hy
        rw [hg] at hy
        exact absurd hy.2 (by simp)
      · rw [← hpd.1] at hy
        exact hy.1
    · exact (hno.no _ hpd).1)
  -- values
  have hperm := List.mergeSort_perm r.frozenNodes.values valueKeyLe
  have hnd : AMap.NodupKeys (r.frozenNodes.values.mergeSort valueKeyLe) :=
    (hperm.map Prod.fst).nodup_iff.2 h.vnodup
  have hget : ∀ a, AMap.get? (r.frozenNodes.values.mergeSort valueKeyLe) a = AMap.get? r.frozenNodes.values a := by
    intro a
    cases hg : AMap.get? r.frozenNodes.values a with
    | none =>
      rw [AMap.get?_eq_none_iff] at hg ⊢
      rwa [(hperm.map Prod.fst).mem_iff]
    | some y =>
      exact AMap.get?_of_mem hnd (hperm.mem_iff.2 (AMap.mem_of_get? hg))
  have hmem : ∀ e' ∈ r.frozenNodes.values.mergeSort valueKeyLe, AMap.get? r.frozenNodes.values e'.1 = some e'.2 := fun e' he' =>
    AMap.get?_of_mem h.vnodup (hperm.mem_iff.1 he')
  obtain ⟨vh, hv1, hv2⟩ := insertValues_at (w := w) (r.frozenNodes.values.mergeSort valueKeyLe) s.values hnd
    (fun e' he' => (h.frozen e'.1.1 e'.1.2 e'.2 (hmem e' he')).1) (fun e' he' => by
      by_cases hk : e'.1.2 ∈ p0.map Prod.fst
      · obtain ⟨a, ha, hae⟩ := List.mem_map.1 hk
        rw [← hae]
        exact .inr ⟨_, h.stored a ha⟩
      · rcases h.absent _ hk with ha | ⟨x, -, ha⟩
        · exact .inl ha
        · exact .inr ⟨_, ha⟩)
  refine ⟨{ s with nodes := AMap.extend s.nodes r.frozenNodes.nodes, values := vh }, ?_, ?_, rfl⟩
  · unfold writeNodeBatch
    rw [hn, ok_bind, hv1, ok_bind]
  · have hnodes : ∀ key, AMap.get? (AMap.extend s.nodes r.frozenNodes.nodes) key =
        match AMap.get? r.frozenNodes.nodes key with | some v => some v | none => AMap.get? s.nodes key :=
      fun key => by
        rw [AMap.get?_extend _ h.nodes.nodup key]
        cases AMap.get? r.frozenNodes.nodes key <;> rfl
    have hno' : NodesOk H (AMap.extend s.nodes r.frozenNodes.nodes) [] (entriesOf H gp) w e.1 := by
      constructor
      · intro q hq
        left
        rw [hnodes]
        rcases hno.yes q hq with ⟨a, b⟩ | ⟨a, b⟩
        · rw [b]; exact ⟨a, rfl⟩
        · rw [b]; exact ⟨rfl, rfl⟩
      · intro key hk
        rw [hnodes]
        obtain ⟨a, b⟩ := hno.no key hk
        rw [b]; exact ⟨a, rfl⟩
    refine ⟨⟨h.nodes.asc, hauth, AMap.nodupKeys_nil, storeN_of h.nodes.asc hle hno', ?_, ?_⟩, h.root, h.version, AMap.nodupKeys_nil, ?_, ?_, ?_, ?_, h.snodup.extend _⟩
    · intro hc
      exact absurd (List.map_eq_nil_iff.1 hc) hne
    · intro k vh hk
      rw [hle] at hk
      cases hk
      exact ⟨hpl, n, ⟨hp.version, hp.lt, hp.nodes⟩, .inr ⟨h0, hr, Nat.le_refl _, fun _ => hno'⟩⟩
    · intro v k x hx
      simp at hx
    · intro e' he'
      exact .inr he'
    · intro e' he'
      show histOf vh e'.1 = _
      rw [hv2, hget]
      rcases h.known e' he' with ⟨y, hy⟩ | hk
      · rw [hy]
        obtain ⟨-, z, hz, hzm⟩ := h.frozen _ _ _ hy
        have : z = e'.2 := by
          have h1 : (e'.1, z) ∈ gp := hzm
          have h2 : (e'.1, e'.2) ∈ gp := he'
          exact Option.some.inj ((AMap.get?_of_mem (m := gp) h.nodupKeys h1).symm.trans (AMap.get?_of_mem (m := gp) h.nodupKeys h2))
        rw [hz, this]
      · cases hg : AMap.get? r.frozenNodes.values (w, e'.1) with
        | none => exact h.stored e' hk
        | some y =>
          obtain ⟨-, z, hz, hzm⟩ := h.frozen _ _ _ hg
          have : z = e'.2 := by
            have h1 : (e'.1, z) ∈ gp := hzm
            have h2 : (e'.1, e'.2) ∈ gp := he'
            exact Option.some.inj ((AMap.get?_of_mem (m := gp) h.nodupKeys h1).symm.trans (AMap.get?_of_mem (m := gp) h.nodupKeys h2))
          simp only []
          rw [hz, this]
    · intro k hk
      show histOf vh k = [] ∨ ∃ x, (k, x) ∈ E ∧ histOf vh k = [(w, some x)]
      rw [hv2, hget]
      cases hg : AMap.get? r.frozenNodes.values (w, k) with
      | none => exact h.absent k (fun hc => hk (hkeys.subset hc))
      | some y =>
        obtain ⟨-, z, hz, hzm⟩ := h.frozen _ _ _ hg
        exact absurd (List.mem_map.2 ⟨_, hzm, rfl⟩) hk

end
end Jmt
