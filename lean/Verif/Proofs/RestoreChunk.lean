import Verif.Proofs.RestoreVerify
/-!
# Invariants of the receiver between keys and chunks
-/
namespace Jmt
open Spec (Entry)

/-- Keys in increasing order. -/
def Asc (m : List Entry) : Prop := m.Pairwise (fun a b => a.1.val < b.1.val)

/-- The entries of received pairs. -/
def entriesOf (H : Hasher) (ps : List (KeyHash × Value)) : List Entry := ps.map (fun e => (e.1, H.hash e.2))

section
variable {H : Hasher} {m : List Entry} {w : Version} {k k' : KeyHash} {vh vh' : ValueHash} {n : Nat} {r r' : Restore}

theorem Asc.nodup (h : Asc m) : NodupE m := by
  unfold NodupE
  rw [List.Nodup, List.pairwise_map]
  exact h.imp (fun hlt he => key_ne_of_lt hlt he)

theorem Asc.max (h : Asc m) (hl : m.getLast? = some (k, vh)) : MaxKey m k := by
  intro e he
  rw [List.getLast?_eq_some_iff] at hl
  obtain ⟨m', rfl⟩ := hl
  unfold Asc at h
  rw [List.pairwise_append] at h
  rcases List.mem_append.1 he with he | he
  · exact fun hc => List.lt_irrefl _ (List.lt_trans (h.2.2 e he (k, vh) (by simp)) hc)
  · rw [List.mem_singleton.1 he]; exact List.lt_irrefl _

theorem Asc.snoc (h : Asc m) (hlt : ∀ k vh, m.getLast? = some (k, vh) → k.val < k'.val) : Asc (m ++ [(k', vh')]) := by
  unfold Asc at *
  rw [List.pairwise_append]
  refine ⟨h, by simp, fun a ha b hb => ?_⟩
  rw [List.mem_singleton.1 hb]
  cases hl : m.getLast? with
  | none => rw [List.getLast?_eq_none_iff] at hl; rw [hl] at ha; simp at ha
  | some e =>
    have h1 := hlt e.1 e.2 hl
    have h2 : ¬ e.1.val < a.1.val := Asc.max h hl a ha
    exact Std.lt_of_le_of_lt (List.not_lt.1 h2) h1

theorem Asc.prefix {m' : List Entry} (h : Asc m) (hp : m' <+: m) : Asc m' :=
  List.Pairwise.sublist hp.sublist h

/-- An increasing list with the entries of `M` up to `k` is an initial segment of `M`. -/
theorem upto_prefix {M : List Entry} (h : Asc M) : upto M k <+: M := by
  induction M with
  | nil => exact List.prefix_refl _
  | cons e M ih =>
    unfold Asc at h
    rw [List.pairwise_cons] at h
    unfold upto at ih ⊢
    rw [List.filter_cons]
    split
    · exact List.cons_prefix_cons.2 ⟨rfl, ih h.2⟩
    · rename_i hc
      have hc' : k.val < e.1.val := by simpa using hc
      have : M.filter (fun e => !decide (k.val < e.1.val)) = [] := by
        rw [List.filter_eq_nil_iff]
        intro a ha
        simpa using List.lt_trans hc' (h.1 a ha)
      rw [this]
      exact List.nil_prefix

theorem asc_ext {a b : List Entry} (ha : Asc a) (hb : Asc b) (h : ∀ e, e ∈ a ↔ e ∈ b) : a = b := by
  have hirr : ∀ {x y : Entry}, x.1.val < y.1.val → y.1.val < x.1.val → False := fun h1 h2 =>
    List.lt_irrefl _ (List.lt_trans h1 h2)
  induction a generalizing b with
  | nil =>
    cases b with
    | nil => rfl
    | cons x b => exact absurd ((h x).2 (by simp)) (by simp)
  | cons x a ih =>
    cases b with
    | nil => exact absurd ((h x).1 (by simp)) (by simp)
    | cons y b =>
      unfold Asc at ha hb
      rw [List.pairwise_cons] at ha hb
      have hxy : x = y := by
        rcases List.mem_cons.1 ((h x).1 (by simp)) with h1 | h1
        · exact h1
        · rcases List.mem_cons.1 ((h y).2 (by simp)) with h2 | h2
          · exact h2.symm
          · exact (hirr (ha.1 y h2) (hb.1 x h1)).elim
      subst hxy
      rw [ih ha.2 hb.2]
      intro e
      constructor
      · intro he
        rcases List.mem_cons.1 ((h e).1 (by simp [he])) with h1 | h1
        · subst h1; exact absurd (ha.1 _ he) (List.lt_irrefl _)
        · exact h1
      · intro he
        rcases List.mem_cons.1 ((h e).2 (by simp [he])) with h1 | h1
        · subst h1; exact absurd (hb.1 _ he) (List.lt_irrefl _)
        · exact h1

/-- The nodes complete once `L` has been received after `m`, whose last key is `k`, are stored, except `d` internal nodes on the path of `k`, the
highest ones (`d` is `0` unless a write was interrupted). -/
structure GapAt (H : Hasher) (S : AMap NodeKey Node) (m : List Entry) (w : Version) (k : KeyHash) (L : Entry) (d : Nat) : Prop where
  lt : lcpN k L.1 + d < 64
  two : ∀ i, lcpN k L.1 < i → i ≤ lcpN k L.1 + d → 2 ≤ (under (k.nibbles.take i) m).length
  ok : NodesOk H S (frz H m w k (lcpN k L.1) d []) (m ++ [L]) w L.1

/-- The nodes in the store when the entries `m0` have been accepted. -/
structure StoreN (H : Hasher) (S : AMap NodeKey Node) (m0 : List Entry) (w : Version) : Prop where
  nil : m0.length ≤ 1 → ∀ key, S.get? key = none
  last : ∀ m k vh L, m0 = m ++ [L] → m.getLast? = some (k, vh) → ∃ d, GapAt H S m w k L d

theorem StoreN.none_of_le (h : StoreN H S m0 w) (hl : m0.length ≤ 1) (key : NodeKey) : S.get? key = none := h.nil hl key

/-- Everything complete is stored. -/
theorem storeN_of {k0 : KeyHash} {vh0 : ValueHash} (hasc : Asc m0) (hl : m0.getLast? = some (k0, vh0)) (hno : NodesOk H S [] m0 w k0) : StoreN H S m0 w := by
  constructor
  · intro hle key
    match m0, hl, hle with
    | [_], hl, _ => exact (hno.no key (fun hc => pending_one _ hc.2)).1
  · intro m k vh L hL hk
    subst hL
    simp only [List.getLast?_concat, Option.some.injEq] at hl
    subst hl
    have hlt : k.val < k0.val := by
      unfold Asc at hasc
      rw [List.pairwise_append] at hasc
      exact hasc.2.2 _ (List.mem_of_getLast? hk) (k0, vh0) (by simp)
    exact ⟨0, (lcpN_spec hlt).1, fun i a b => by omega, hno⟩

/-- The partial nodes and the frozen nodes: `Ms` is the snapshot, `m0` the accepted entries, `m` those received. -/
structure InvN (H : Hasher) (Ms : List Entry) (w : Version) (S : AMap NodeKey Node) (m0 : List Entry) (r : Restore)
    (m : List Entry) : Prop where
  asc : Asc m
  auth0 : m0 <+: Ms
  nodup : AMap.NodupKeys r.frozenNodes.nodes
  store : StoreN H S m0 w
  nil : m = [] → r.numKeysReceived = 0 ∧ r.previousLeaf = none ∧ r.frozenNodes.nodes = [] ∧ (∀ k, Part H r [] w k 0) ∧
    m0.length ≤ 1
  last : ∀ k vh, m.getLast? = some (k, vh) → r.previousLeaf = some ⟨k, vh⟩ ∧ ∃ n, Part H r m w k n ∧
    ((r.numKeysReceived = 0 ∧ r.frozenNodes.nodes = [] ∧ ∃ (L : Entry) (d : Nat), m0 = m ++ [L] ∧ n = lcpN k L.1 + d ∧ GapAt H S m w k L d) ∨
     (r.numKeysReceived ≠ 0 ∧ RReady m k vh n ∧ m0.length ≤ m.length ∧
       (m <+: Ms → NodesOk H S r.frozenNodes.nodes m w k)))

theorem frz_nodup (c : Nat) : ∀ (d : Nat) (N : AMap NodeKey Node), AMap.NodupKeys N → AMap.NodupKeys (frz H m w k c d N) := by
  intro d
  induction d with
  | zero => intro N h; exact h
  | succ d ih => intro N h; exact ih _ (h.insert _ _)

theorem addFrozen_nodup (h : AMap.NodupKeys r.frozenNodes.nodes) : AMap.NodupKeys (addFrozen H m w k vh k' n r) := by
  unfold addFrozen frzAll
  apply frz_nodup
  split
  · exact h
  · exact h.insert _ _

/-- Receive one key. -/
def Restore.received (r : Restore) (k : KeyHash) (vh : ValueHash) : Restore :=
  { r with previousLeaf := some ⟨k, vh⟩, numKeysReceived := r.numKeysReceived + 1 }

theorem snoc_prefix_eq {α : Type} {l Ms : List α} {a b : α} (h1 : l ++ [a] <+: Ms) (h2 : l ++ [b] <+: Ms) : a = b := by
  obtain ⟨t, h1⟩ := h1
  obtain ⟨u, h2⟩ := h2
  rw [← h2, List.append_assoc, List.append_assoc] at h1
  have := List.append_cancel_left h1
  simp at this
  exact this.1

theorem invN_add {Ms : List Entry} {S : AMap NodeKey Node} {m0 : List Entry} (h : InvN H Ms w S m0 r m)
    (hlt : ∀ k vh, m.getLast? = some (k, vh) → k.val < k'.val) (hadd : r.addOne H k' vh' = .ok r') :
    InvN H Ms w S m0 (r'.received k' vh') (m ++ [(k', vh')]) ∧ r'.frozenNodes.values = r.frozenNodes.values ∧
      r'.expectedRoot = r.expectedRoot := by
  have hasc := Asc.snoc (vh' := vh') h.asc hlt
  cases hl : m.getLast? with
  | none =>
    rw [List.getLast?_eq_none_iff] at hl
    subst hl
    obtain ⟨h0, h1, h2, h3, h4⟩ := h.nil rfl
    rw [addOne_first (h3 k') h0] at hadd
    cases hadd
    refine ⟨⟨hasc, h.auth0, ?_, h.store, fun hc => by simp at hc, fun k vh hk => ?_⟩, rfl, rfl⟩
    · exact h.nodup
    · simp at hk
      obtain ⟨rfl, rfl⟩ := hk
      refine ⟨rfl, 0, ⟨(h3 k').version, by decide, rfl⟩, .inr ⟨Nat.succ_ne_zero _, ready_first, by simpa using h4, fun _ => ?_⟩⟩
      refine ⟨fun q hq => absurd hq (pending_one q), fun key _ => ⟨h.store.none_of_le h4 key, ?_⟩⟩
      show r.frozenNodes.nodes.get? key = none
      rw [h2]; rfl
  | some e =>
    obtain ⟨k, vh⟩ := e
    have hk := h.asc.max hl
    have hmem : (k, vh) ∈ m := List.mem_of_getLast? hl
    have hm := h.asc.nodup
    obtain ⟨-, n, hp, hcase⟩ := h.last k vh hl
    have h1 : r.numKeysReceived ≠ 0 → under (k.nibbles.take (n + 1)) m = [(k, vh)] := by
      intro h0
      rcases hcase with hc | hc
      · exact absurd hc.1 h0
      · exact hc.2.1.leaf
    have hlt' := hlt k vh hl
    have hca := addOne_inv hm hk hmem hp h1 hlt' hadd
    rw [addOne_ok hm hk hp h1 hlt' hca] at hadd
    cases hadd
    refine ⟨⟨hasc, h.auth0, addFrozen_nodup h.nodup, h.store, fun hc => by simp at hc, fun k1 vh1 hk1 => ?_⟩, rfl, rfl⟩
    simp at hk1
    obtain ⟨rfl, rfl⟩ := hk1
    obtain ⟨h64, -, -⟩ := lcpN_spec hlt'
    refine ⟨rfl, lcpN k k', ⟨hp.version, h64, rfl⟩, .inr ⟨Nat.succ_ne_zero _, ready_add hk hmem hlt', ?_, fun hauth => ?_⟩⟩
    · rcases hcase with ⟨-, -, L, d, hL, -⟩ | hc
      · rw [hL]; simp
      · have := hc.2.2.1; simp; omega
    · rcases hcase with ⟨h0, hF, L, d, hL, hn, hgap⟩ | ⟨h0, hr, -, hno⟩
      · have hLe : L = (k', vh') := snoc_prefix_eq (hL ▸ h.auth0) hauth
        subst hLe
        show NodesOk H S (addFrozen H m w k vh k' n r) (m ++ [(k', vh')]) w k'
        have : addFrozen H m w k vh k' n r = frz H m w k (lcpN k k') d [] := by
          unfold addFrozen frzAll
          rw [if_pos h0, hn, Nat.max_eq_left (Nat.le_add_right _ _), Nat.add_sub_cancel_left, hF]
        rw [this]
        exact hgap.ok
      · exact nodesOk_add hk hmem hr hp.lt hlt' h0 (hno ((List.prefix_append _ _).trans hauth))

/-- When the next entry is the right one the key is added. -/
theorem addOne_next {Ms : List Entry} {S : AMap NodeKey Node} {m0 : List Entry} (h : InvN H Ms w S m0 r m) (hMs : Asc Ms)
    (hauth : m ++ [(k', vh')] <+: Ms) : ∃ r', r.addOne H k' vh' = .ok r' := by
  cases hl : m.getLast? with
  | none =>
    rw [List.getLast?_eq_none_iff] at hl
    subst hl
    obtain ⟨h0, h1, h2, h3, h4⟩ := h.nil rfl
    exact ⟨_, addOne_first (h3 k') h0⟩
  | some e =>
    obtain ⟨k, vh⟩ := e
    have hk := h.asc.max hl
    have hmem : (k, vh) ∈ m := List.mem_of_getLast? hl
    have hm := h.asc.nodup
    obtain ⟨-, n, hp, hcase⟩ := h.last k vh hl
    have hlt' : k.val < k'.val := by
      have := hMs.prefix hauth
      unfold Asc at this
      rw [List.pairwise_append] at this
      exact this.2.2 (k, vh) hmem (k', vh') (by simp)
    rcases hcase with ⟨h0, hF, L, d, hL, hn, hgap⟩ | ⟨h0, hr, -, hno⟩
    · have hLe : L = (k', vh') := snoc_prefix_eq (hL ▸ h.auth0) hauth
      subst hLe
      exact ⟨_, addOne_ok hm hk hp (vh := vh) (fun hc => absurd h0 hc) hlt'
        ⟨.inl (by rw [hn]; exact Nat.le_add_right _ _), fun i a b => hgap.two i a (by rw [hn] at b; exact b)⟩⟩
    · exact ⟨_, addOne_ok hm hk hp (fun _ => hr.leaf) hlt' hr.canAdd⟩

end
end Jmt
