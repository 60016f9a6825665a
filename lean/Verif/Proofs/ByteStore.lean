import Verif.Spec.ByteStore
import Verif.Proofs.Borsh
import Verif.Proofs.NibblePath
import Verif.Props.UpdateBatch
/-!
# Everything an update batch holds can be encoded
-/
namespace Jmt
open Borsh
open Spec (Entry)

theorem uint8_enc {x : Nat} (h : x < 2 ^ 64) : ∃ bs, (uint 8).enc x = some bs :=
  ⟨_, if_pos (by simpa using h)⟩

theorem pair_enc {α β : Type} {c : Codec α} {d : Codec β} {a : α} {b : β} (h1 : ∃ bs, c.enc a = some bs)
    (h2 : ∃ bs, d.enc b = some bs) : ∃ bs, (pair c d).enc (a, b) = some bs := by
  obtain ⟨x, h1⟩ := h1
  obtain ⟨y, h2⟩ := h2
  refine ⟨x ++ y, ?_⟩
  simp only [pair, h1, h2, Option.bind_eq_bind, Option.bind_some]

theorem encSeq_some {α : Type} {c : Codec α} : ∀ {l : List α}, (∀ a ∈ l, ∃ bs, c.enc a = some bs) → ∃ bs, encSeq c l = some bs
  | [], _ => ⟨[], rfl⟩
  | a :: l, h => by
    obtain ⟨x, hx⟩ := h a (by simp)
    obtain ⟨y, hy⟩ := encSeq_some (l := l) (fun b hb => h b (by simp [hb]))
    refine ⟨x ++ y, ?_⟩
    simp only [encSeq, hx, hy, Option.bind_eq_bind, Option.bind_some]

theorem vec_enc {α : Type} {c : Codec α} {l : List α} (hl : l.length < 2 ^ 32) (h : ∀ a ∈ l, ∃ bs, c.enc a = some bs) :
    ∃ bs, (vec c).enc l = some bs := by
  obtain ⟨y, hy⟩ := encSeq_some h
  refine ⟨leBytes 4 l.length ++ y, ?_⟩
  have hn : (uint 4).enc l.length = some (leBytes 4 l.length) := if_pos (by simpa using hl)
  simp only [vec, hn, hy, Option.bind_eq_bind, Option.bind_some]

theorem u8_enc (b : UInt8) : ∃ bs, u8.enc b = some bs := ⟨_, rfl⟩

theorem bytes32_enc (b : Bytes32) : ∃ bs, bytes32.enc b = some bs := ⟨_, rfl⟩

theorem nibblePath_enc {p : NibblePath} (h : p.numNibbles < 2 ^ 64) (h2 : p.bytes.length < 2 ^ 32) :
    ∃ bs, nibblePath.enc p = some bs :=
  pair_enc (uint8_enc h) (vec_enc h2 fun b _ => u8_enc b)

theorem nodeKey_enc {k : NodeKey} (hv : k.version < 2 ^ 64) (hp : k.path.length ≤ 64) :
    ∃ bs, nodeKey.enc k.packed = some bs := by
  refine pair_enc (uint8_enc hv) (nibblePath_enc ?_ ?_)
  · show k.path.length < _
    omega
  · show (Spec.pack k.path).length < _
    rw [pack_length]
    omega

theorem child_enc {c : Child} (hv : c.version < 2 ^ 64) (hl : c.leafCount < 2 ^ 64) : ∃ bs, child.enc c = some bs := by
  refine pair_enc (bytes32_enc _) (pair_enc (uint8_enc hv) ?_)
  obtain ⟨h, v, t⟩ := c
  cases t with
  | leaf => exact ⟨_, rfl⟩
  | internal n =>
    obtain ⟨x, hx⟩ := uint8_enc (x := n) hl
    exact ⟨1 :: x, by show Option.map _ ((uint 8).enc n) = _; rw [hx]; rfl⟩

theorem option_enc {α : Type} {c : Codec α} {o : Option α} (h : ∀ a, o = some a → ∃ bs, c.enc a = some bs) :
    ∃ bs, (option c).enc o = some bs := by
  cases o with
  | none => exact ⟨_, rfl⟩
  | some a =>
    obtain ⟨x, hx⟩ := h a rfl
    exact ⟨1 :: x, by show Option.map _ (c.enc a) = _; rw [hx]; rfl⟩

theorem node_enc {n : Node} (h : ∀ i, n = .internal i → i.leafCount < 2 ^ 64 ∧ i.children.numChildren < 2 ^ 64 ∧
    ∀ s c, i.children.slots s = some c → c.version < 2 ^ 64 ∧ c.leafCount < 2 ^ 64) : ∃ bs, node.enc n = some bs := by
  cases n with
  | null => exact ⟨_, rfl⟩
  | leaf l =>
    obtain ⟨x, hx⟩ : ∃ bs, leafNode.enc l = some bs := pair_enc (bytes32_enc _) (bytes32_enc _)
    exact ⟨2 :: x, by show Option.map _ (leafNode.enc l) = _; rw [hx]; rfl⟩
  | internal i =>
    obtain ⟨h1, h2, h3⟩ := h i rfl
    obtain ⟨x, hx⟩ : ∃ bs, internalNode.enc i = some bs := by
      refine pair_enc (pair_enc (encSeq_some fun o ho => ?_) (uint8_enc h2)) (uint8_enc h1)
      obtain ⟨s, rfl⟩ := List.mem_ofFn.1 ho
      exact option_enc fun c hc => child_enc (h3 s c hc).1 (h3 s c hc).2
    exact ⟨1 :: x, by show Option.map _ (internalNode.enc i) = _; rw [hx]; rfl⟩

theorem packed_inj {k k' : NodeKey} {kb} (h : nodeKey.enc k.packed = some kb) (h' : nodeKey.enc k'.packed = some kb) : k = k' := by
  have := nodeKey_lawful.inj h h'
  obtain ⟨v, p⟩ := k
  obtain ⟨v', p'⟩ := k'
  unfold NodeKey.packed at this
  simp only [PackedKey.mk.injEq] at this
  rw [this.1, ofList_inj this.2]

/-! ### Counting -/

theorem upd_length (m : List Entry) (k x) : (upd m k x).length ≤ m.length + 1 := by
  unfold upd
  have := List.length_filter_le (fun e : Entry => decide (e.1 ≠ k)) m
  cases x <;> simp only [List.length_append, List.length_nil, List.length_cons] <;> omega

theorem updAll_length (H : Hasher) (ws : ValueSet) : ∀ m, (updAll H m ws).length ≤ m.length + ws.length := by
  unfold updAll
  induction ws with
  | nil => intro m; simp
  | cons w ws ih =>
    intro m
    have h1 := ih (upd m w.1 (w.2.map H.hash))
    have h2 := upd_length m w.1 (w.2.map H.hash)
    simp only [List.foldl_cons, List.length_cons]
    omega

theorem foldl_updAll_length (H : Hasher) (l : List ValueSet) : ∀ m, (l.foldl (updAll H) m).length ≤ m.length + (l.map List.length).sum := by
  induction l with
  | nil => intro m; simp
  | cons w l ih =>
    intro m
    have h1 := ih (updAll H m w)
    have h2 := updAll_length H w m
    simp only [List.foldl_cons, List.map_cons, List.sum_cons]
    omega

theorem sum_take_le (l : List Nat) : ∀ i, (l.take i).sum ≤ l.sum := by
  induction l with
  | nil => intro i; simp
  | cons a l ih =>
    intro i
    cases i with
    | zero => simp
    | succ i => have := ih i; simp only [List.take_succ_cons, List.sum_cons]; omega

theorem entriesAfter_length (H : Hasher) (l : List ValueSet) (i : Nat) : (entriesAfter H l i).length ≤ (l.map List.length).sum := by
  unfold entriesAfter
  have h1 := foldl_updAll_length H (l.take i) []
  have h2 := sum_take_le (l.map List.length) i
  rw [← List.map_take] at h2
  simp only [List.length_nil] at h1
  omega

theorem numWrites_append (a b : List Op) : numWrites (a ++ b) = numWrites a + numWrites b := by
  unfold numWrites
  rw [setsOf_append, List.map_append, List.sum_append]

/-- A node of the canonical tree can be encoded. -/
theorem canonNode_enc {H : Hasher} {m : List Entry} {ver : List Nibble → Version} {p : List Nibble} (hm : m.length < 2 ^ 64)
    (hver : 2 ≤ (under p m).length → ∀ i : Nibble, under (p ++ [i]) m ≠ [] → ver (p ++ [i]) < 2 ^ 64) : ∃ bs, node.enc (canonNode H m ver p) = some bs := by
  have hle : ∀ q, (under q m).length ≤ m.length := fun q => List.length_filter_le _ _
  refine node_enc fun i hi => ?_
  rcases len_cases (under p m) with h | ⟨e, h⟩ | h
  · rw [canonNode_nil h] at hi; cases hi
  · rw [canonNode_one h] at hi; cases hi
  · rw [canonNode_two h] at hi
    cases hi
    refine ⟨Nat.lt_of_le_of_lt (hle p) hm, ?_, fun s c hc => ?_⟩
    · show List.countP _ _ < _
      refine Nat.lt_of_le_of_lt List.countP_le_length ?_
      rw [List.length_finRange]
      omega
    · obtain ⟨-, h2, h3, -, h5⟩ := canonChild_some (show canonChild H m ver (p ++ [s]) = some c from hc)
      rw [h2, h3]
      exact ⟨hver h s h5, Nat.lt_of_le_of_lt (hle _) hm⟩

/-- Every node in use by a readable version can be encoded, key and content. -/
theorem reach_enc {H : Hasher} {ops : List Op} {y : Sys} (hr : Reached H ops y) (hb : (setsOf ops).length < 2 ^ 64)
    (hw : numWrites ops < 2 ^ 64) {v : Version} (hv : Readable ops v) {k : NodeKey} (hk : ReachFrom y.store v k) :
    ∃ nd kb nb, y.store.nodes.get? k = some nd ∧ nodeKey.enc k.packed = some kb ∧ node.enc nd = some nb := by
  have r := hr.readAt hb hv
  obtain ⟨ver, t⟩ := r.tree
  obtain ⟨-, ⟨M, W, hI, -⟩, -, -⟩ := hr.inv hb
  have hlt : ∀ k nd, y.store.nodes.get? k = some nd → k.version < 2 ^ 64 := fun k nd h =>
    Nat.lt_trans (hI.lt k nd h) hb
  have hlen := entriesAfter_length H (setsOf ops) (v + 1)
  have hm : (entriesAfter H (setsOf ops) (v + 1)).length < 2 ^ 64 := Nat.lt_of_le_of_lt hlen hw
  generalize hes : entriesAfter H (setsOf ops) (v + 1) = es at r t hm
  have hget : ∀ q, q ≠ [] → pres es [] q → y.store.nodes.get? ⟨ver q, q⟩ = some (canonNode H es ver q) := by
    intro q h1 h2
    have := t.node q h1 h2; simpa [Store.reader] using this
  have hver : ∀ p : List Nibble, 2 ≤ (under p es).length → ∀ i : Nibble, under (p ++ [i]) es ≠ [] → ver (p ++ [i]) < 2 ^ 64 := by
    intro p h2 i hi
    refine hlt _ _ (hget (p ++ [i]) (by simp) (pres_nil_iff.2 ⟨hi, .inr ?_⟩))
    rw [List.dropLast_concat]
    exact h2
  have key : ∀ nd, y.store.nodes.get? k = some nd → k.path.length ≤ 64 → nd = canonNode H es ver k.path →
      ∃ nd kb nb, y.store.nodes.get? k = some nd ∧ nodeKey.enc k.packed = some kb ∧ node.enc nd = some nb := by
    intro nd h1 h2 h3
    obtain ⟨kb, hkb⟩ := nodeKey_enc (hlt _ _ h1) h2
    obtain ⟨nb, hnb⟩ := canonNode_enc (H := H) hm (hver k.path)
    exact ⟨nd, kb, nb, h1, hkb, by rw [h3]; exact hnb⟩
  rcases (TreeAt.reach_iff r.nodup t k).1 hk with h | ⟨h1, h2, h3⟩
  · subst h
    have := t.root
    exact key _ (by simpa [Store.reader] using this) (by simp) rfl
  · have h4 := hget k.path h1 h2
    rw [h3] at h4
    refine key _ h4 ?_ rfl
    obtain ⟨e, he⟩ := List.exists_mem_of_ne_nil _ h2.2.1
    exact (prefix_nib_iff.1 (mem_under.1 he).2).1

/-- Every node of a faithful update can be encoded. -/
theorem updateOf_enc {H : Hasher} {ops ops' : List Op} {y y' : Sys} {sets : List ValueSet} {hs b}
    (hu : Spec.UpdateOf H y.store y'.store y.next sets hs b) (hr : Reached H ops y) (hr' : Reached H ops' y')
    (hb : (setsOf ops').length < 2 ^ 64) (hw : numWrites ops' < 2 ^ 64) (hsets : setsOf ops' = setsOf ops ++ sets)
    (hhor : (horizon ops').2 = (horizon ops).2) (hnodes : ∀ k nd, b.nodeBatch.nodes.get? k = some nd → y'.store.nodes.get? k = some nd)
    {k nd} (hk : b.nodeBatch.nodes.get? k = some nd) :
    ∃ kb nb, nodeKey.enc k.packed = some kb ∧ node.enc nd = some nb := by
  have hlen := congrArg List.length hsets
  rw [List.length_append] at hlen
  obtain ⟨h1, h2, -, h4⟩ := hu.nodes k nd hk
  obtain ⟨hn, hi⟩ := hr.inv (by omega)
  have hho := horizon_le hr (by omega)
  obtain ⟨nd', kb, nb, e1, e2, e3⟩ := reach_enc hr' hb hw (v := k.version) ⟨by omega, by omega⟩ h4
  rw [hnodes k nd hk] at e1
  cases e1
  exact ⟨kb, nb, e2, e3⟩

end Jmt
