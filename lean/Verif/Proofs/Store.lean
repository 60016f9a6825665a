import Verif.Proofs.Values
import Verif.Proofs.BatchSet
import Verif.Model.System
import Verif.Spec.Tree
/-!
# Committing to and purging the mock store keep the history invariant
-/
namespace Jmt
open Spec (Entry)

/-- Entries after the first `i` value sets. -/
def entriesAfter (H : Hasher) (hist : List ValueSet) (i : Nat) : List Entry :=
  (hist.take i).foldl (updAll H) []

/-- Stale entries of a run. -/
def stAll : Nat → List StepInfo → List StaleNodeIndex
  | _, [] => []
  | V, i :: rest => i.S.map (fun k => ⟨V, k⟩) ++ stAll (V + 1) rest

/-- Nodes after a run. -/
def foldG : Nodes → List StepInfo → Nodes
  | G, [] => G
  | G, i :: rest => foldG (overG i.N G) rest

/-- Root hashes of a run. -/
def hashAll (H : Hasher) : List Entry → List StepInfo → List Digest
  | _, [] => []
  | m, i :: rest => sh H (updAll H m i.ws) [] :: hashAll H (updAll H m i.ws) rest

/-- Statistics of a run. -/
def statAll (H : Hasher) : NodeBase → List StepInfo → List NodeStats
  | _, [] => []
  | B, i :: rest => ⟨i.N.length, i.N.countP (fun e => e.2.isLeaf), i.S.length, i.S.countP (leafIn B)⟩
      :: statAll H (over i.N B) rest

section
variable {H : Hasher} {G : Nodes} {st : List StaleNodeIndex} {n low : Nat}
  {M : Nat → List Entry} {W : Nat → List Nibble → Version}

/-- A node of version `w < i` in the tree of version `i` is on the path of no key that is present in version `i` and
was written by a set after `w`. -/
def FreshInv (hist : List ValueSet) (M : Nat → List Entry) (W : Nat → List Nibble → Version) : Prop :=
  ∀ i, i < hist.length → ∀ q, q ≠ [] → pres (M i) [] q → ∀ u, W i q < u → u ≤ i → ∀ ws, hist[u]? = some ws →
    ∀ k, k ∈ ws.map Prod.fst → ∀ e ∈ M i, e.1 = k → ¬ q <+: k.nibbles

theorem FreshInv.step {hist : List ValueSet} (h : FreshInv hist M W)
    {m m' : List Entry} {ver ver' : List Nibble → Version} (hm : m = cur M hist.length)
    (hver : 0 < hist.length → ver = W (hist.length - 1)) {ws : ValueSet}
    (hm' : m' = updAll H m ws)
    {ins eff : Prop} {ren : List Nibble → Prop}
    (hf : Fresh hist.length m ver m' ver' (ws.map Prod.fst) ins eff ren) :
    FreshInv (hist ++ [ws]) (updN M hist.length m') (updN W hist.length ver') := by
  intro i hi q hq0 hp u hu1 hu2 ws' hws' k hk e he hek
  rw [List.length_append, List.length_singleton] at hi
  by_cases hin : i = hist.length
  · subst hin
    rw [updN_self] at hp he hu1
    rcases hf.new q hp with h1 | ⟨h1, h2, h3⟩
    · omega
    · by_cases hun : u = hist.length
      · subst hun
        rw [List.getElem?_append_right (Nat.le_refl _)] at hws'
        simp at hws'
        subst hws'
        exact h3 k hk ⟨e, he, hek⟩
      · rw [List.getElem?_append_left (by omega)] at hws'
        have h0 : hist.length ≠ 0 := by omega
        have hM : m = M (hist.length - 1) := by rw [hm]; simp [cur, h0]
        rw [hM] at h2
        have hv := hver (by omega)
        rw [hv] at h1
        -- below `q` nothing has changed
        intro hqk
        by_cases hkw : k ∈ ws.map Prod.fst
        · exact h3 k hkw ⟨e, he, hek⟩ hqk
        · have hem : e ∈ m := by
            rw [hm'] at he
            exact (mem_updAll_of_not_mem (by rwa [hek])).1 he
          rw [hM] at hem
          exact h _ (by omega) q hq0 h2 u (by omega) (by omega) ws' hws' k hk e hem hek hqk
  · rw [updN_ne hin] at hp he hu1
    rw [List.getElem?_append_left (by omega)] at hws'
    exact h i (by omega) q hq0 hp u hu1 hu2 ws' hws' k hk e he hek

/-- Below the root, the node at `q` in the tree of version `i` is of version `i` if a write of that version renewed it, else it is
the node of the previous version. -/
def VerInv (H : Hasher) (hist : List ValueSet) (M : Nat → List Entry) (W : Nat → List Nibble → Version) : Prop :=
  ∀ i, i < hist.length → ∀ q, q ≠ [] → pres (M i) [] q → ∀ ws, hist[i]? = some ws →
    (Renewed H (cur M i) ws q → W i q = i) ∧ (¬ Renewed H (cur M i) ws q → W i q = W (i - 1) q ∧ pres (cur M i) [] q)

theorem VerInv.step {hist : List ValueSet} (h : VerInv H hist M W)
    {m m' : List Entry} {ver ver' : List Nibble → Version} (hm : m = cur M hist.length)
    (hver : 0 < hist.length → ver = W (hist.length - 1)) {ws : ValueSet}
    {ks : List KeyHash} {ins eff : Prop} (hf : Fresh hist.length m ver m' ver' ks ins eff (Renewed H m ws)) :
    VerInv H (hist ++ [ws]) (updN M hist.length m') (updN W hist.length ver') := by
  intro i hi q hq0 hp ws' hws'
  rw [List.length_append, List.length_singleton] at hi
  have hcur : cur (updN M hist.length m') i = cur M i := by
    unfold cur
    split
    · rfl
    · rw [updN_ne (by omega)]
  rw [hcur]
  by_cases hin : i = hist.length
  · subst hin
    rw [updN_self] at hp
    rw [List.getElem?_append_right (Nat.le_refl _)] at hws'
    simp at hws'
    subst hws'
    rw [updN_self, ← hm]
    obtain ⟨e1, e2⟩ := hf.exact q hp
    refine ⟨e1, fun hn => ?_⟩
    obtain ⟨e3, e4⟩ := e2 hn
    have h0 : 0 < hist.length := by
      apply Nat.pos_of_ne_zero
      intro h0
      rw [hm, h0] at e4
      exact not_pres_of_nil e4
    rw [updN_ne (by omega), ← hver h0]
    exact ⟨e3, e4⟩
  · rw [updN_ne hin] at hp
    rw [List.getElem?_append_left (by omega)] at hws'
    rw [updN_ne hin, updN_ne (by omega)]
    exact h i (by omega) q hq0 hp ws' hws'

theorem VerInv.of_eq {hist : List ValueSet} (h : VerInv H hist M W) {W' : Nat → List Nibble → Version}
    (hW : ∀ i q, q ≠ [] → W' i q = W i q) : VerInv H hist M W' := by
  intro i hi q hq hp ws hws
  rw [hW _ _ hq, hW _ _ hq]
  exact h i hi q hq hp ws hws

theorem Run.hist {infos : List StepInfo} : ∀ {n : Nat} {G : Nodes} {m ver st M W},
    Run H n (nb G) m ver infos →
    HistInv H G st n low M W → m = cur M n → (0 < n → ver = W (n - 1)) → NodupE m →
    ∀ {hist : List ValueSet}, hist.length = n → FreshInv hist M W ∧ VerInv H hist M W →
    ∃ M' W', HistInv H (foldG G infos) (st ++ stAll n infos) (n + infos.length) low M' W' ∧
      (∀ i, i < n → M' i = M i ∧ W' i = W i) ∧
      (∀ j, j < infos.length → M' (n + j) =
        ((infos.map StepInfo.ws).take (j + 1)).foldl (updAll H) m) ∧
      FreshInv (hist ++ infos.map StepInfo.ws) M' W' ∧ VerInv H (hist ++ infos.map StepInfo.ws) M' W' := by
  induction infos with
  | nil =>
    intro n G m ver st M W _ h _ _ _ hist _ hfr
    exact ⟨M, W, by simpa [foldG, stAll] using h, fun _ _ => ⟨rfl, rfl⟩, by simp, by simpa using hfr⟩
  | cons i rest ih =>
    intro n G m ver st M W hr h hm hv hnd hist hlen hfi
    cases hr with
    | cons d hr hfr _ =>
      have hfi1 := hfi.1.step (H := H) (hlen ▸ hm) (hlen ▸ hv) rfl (hlen ▸ hfr)
      have hfi2 := hfi.2.step (H := H) (hlen ▸ hm) (hlen ▸ hv) (hlen ▸ hfr)
      rw [hlen] at hfi1 hfi2
      have hfi' := And.intro hfi1 hfi2
      have h' := h.step hm hv (hnd.updAll i.ws) d
      rw [over_nb] at hr
      obtain ⟨M', W', a1, a2, a3, a4⟩ := ih hr h' (by simp [cur]) (by intro _; simp) (hnd.updAll _)
        (hist := hist ++ [i.ws]) (by simp [hlen]) hfi'
      refine ⟨M', W', ?_, ?_, ?_, by simpa using a4⟩
      · simp only [foldG, stAll, List.length_cons]
        rw [← List.append_assoc, show n + (rest.length + 1) = n + 1 + rest.length by omega]
        exact a1
      · intro j hj
        obtain ⟨b1, b2⟩ := a2 j (by omega)
        rw [b1, b2, updN_ne (by omega), updN_ne (by omega)]
        exact ⟨rfl, rfl⟩
      · intro j hj
        cases j with
        | zero =>
          rw [Nat.add_zero, (a2 n (by omega)).1]
          simp
        | succ j =>
          rw [show n + (j + 1) = n + 1 + j by omega, a3 j (by simpa using hj)]
          simp

/-- Facts about each step of a run that do not need the store. -/
theorem Run.facts {infos : List StepInfo} : ∀ {V : Nat} {B m ver}, Run H V B m ver infos →
    ∀ j i, infos[j]? = some i → i.N.NodupKeys ∧ i.S.Nodup ∧ ∀ k nd, i.N.get? k = some nd → k.version = V + j := by
  induction infos with
  | nil => intro V B m ver _ j i h; simp at h
  | cons i rest ih =>
    intro V B m ver hr j i' h
    cases hr with
    | cons d hr =>
      cases j with
      | zero =>
        simp at h; subst h
        exact ⟨d.nodup, d.staleNodup, fun k nd hk => (d.newKey k nd hk).1⟩
      | succ j =>
        obtain ⟨a, b, c⟩ := ih hr j i' (by simpa using h)
        exact ⟨a, b, fun k nd hk => by rw [c k nd hk]; omega⟩

theorem Run.nodup {infos : List StepInfo} {V : Nat} {B m ver} (h : Run H V B m ver infos) :
    ∀ i ∈ infos, i.N.NodupKeys := by
  intro i hi
  obtain ⟨j, hj⟩ := List.mem_iff_getElem?.1 hi
  exact (h.facts j i hj).1

theorem pushAll_nodes {infos : List StepInfo} : ∀ {V : Nat} {B m f}, (∀ i ∈ infos, i.N.NodupKeys) →
    (∀ G0, overG (pushAll H V B m f infos).nodeBatch.nodes G0 = foldG (overG f.nodeBatch.nodes G0) infos) ∧
    (f.nodeBatch.nodes.NodupKeys → (pushAll H V B m f infos).nodeBatch.nodes.NodupKeys) := by
  induction infos with
  | nil => intro V B m f _; exact ⟨fun _ => rfl, id⟩
  | cons i rest ih =>
    intro V B m f hn
    obtain ⟨a1, a2⟩ := ih (V := V + 1) (B := over i.N B) (m := updAll H m i.ws)
      (f := f.push V i.N i.vc i.S (i.S.countP (leafIn B)) (sh H (updAll H m i.ws) []))
      (fun j hj => hn j (by simp [hj]))
    refine ⟨fun G0 => ?_, fun hf => a2 ?_⟩
    · show overG (pushAll H (V + 1) _ _ _ rest).nodeBatch.nodes G0 = _
      rw [a1]
      show _ = foldG (overG i.N (overG f.nodeBatch.nodes G0)) rest
      congr 1
      funext k
      unfold overG Frozen.push
      dsimp only
      rw [AMap.get?_extend _ (hn i (by simp))]
      cases i.N.get? k <;> rfl
    · exact hf.extend _

theorem pushAll_keys {infos : List StepInfo} : ∀ {V : Nat} {B m f}, Run H V B m ver infos →
    ∀ k nd, (pushAll H V B m f infos).nodeBatch.nodes.get? k = some nd →
      f.nodeBatch.nodes.get? k = some nd ∨ (V ≤ k.version ∧ k.version < V + infos.length) := by
  induction infos generalizing ver with
  | nil => intro V B m f _ k nd h; exact .inl h
  | cons i rest ih =>
    intro V B m f hr k nd h
    cases hr with
    | cons d hr =>
      have h' : (pushAll H (V + 1) _ _ _ rest).nodeBatch.nodes.get? k = some nd := h
      rcases ih hr k nd h' with h' | h'
      · unfold Frozen.push at h'
        dsimp only at h'
        rw [AMap.get?_extend _ d.nodup] at h'
        cases hg : i.N.get? k with
        | none => rw [hg] at h'; exact .inl h'
        | some nd' =>
          have := (d.newKey k nd' hg).1
          right; simp only [List.length_cons]; omega
      · right; simp only [List.length_cons]; omega

theorem pushAll_stale {infos : List StepInfo} : ∀ {V : Nat} {B m f}, Run H V B m ver infos →
    (∀ x ∈ f.stale, x.staleSince < V) →
    (pushAll H V B m f infos).stale = f.stale ++ stAll V infos := by
  induction infos generalizing ver with
  | nil => intro V B m f _ _; simp [pushAll, stAll]
  | cons i rest ih =>
    intro V B m f hr hf
    cases hr with
    | cons d hr =>
      have hfil : (i.S.map (fun k => (⟨V, k⟩ : StaleNodeIndex))).filter (fun j => decide (j ∉ f.stale)) =
          i.S.map (fun k => (⟨V, k⟩ : StaleNodeIndex)) := by
        rw [List.filter_eq_self]
        intro x hx
        obtain ⟨k, -, rfl⟩ := List.mem_map.1 hx
        simp only [decide_eq_true_eq]
        intro hc
        have := hf _ hc
        dsimp only at this; omega
      show (pushAll H (V + 1) _ _ _ rest).stale = _
      rw [ih hr]
      · unfold Frozen.push
        dsimp only
        rw [hfil, List.append_assoc]; rfl
      · intro x hx
        unfold Frozen.push at hx
        dsimp only at hx
        rw [hfil] at hx
        rcases List.mem_append.1 hx with hx | hx
        · have := hf x hx; omega
        · obtain ⟨k, -, rfl⟩ := List.mem_map.1 hx
          exact Nat.lt_succ_self V

theorem pushAll_hashes {infos : List StepInfo} : ∀ {V : Nat} {B m f},
    (pushAll H V B m f infos).rootHashes = f.rootHashes ++ hashAll H m infos := by
  induction infos with
  | nil => intro V B m f; simp [pushAll, hashAll]
  | cons i rest ih =>
    intro V B m f
    show (pushAll H (V + 1) _ _ _ rest).rootHashes = _
    rw [ih]
    show (f.rootHashes ++ [_]) ++ _ = _
    rw [List.append_assoc]; rfl

theorem pushAll_stats {infos : List StepInfo} : ∀ {V : Nat} {B m f},
    (pushAll H V B m f infos).stats = f.stats ++ statAll H B infos := by
  induction infos with
  | nil => intro V B m f; simp [pushAll, statAll]
  | cons i rest ih =>
    intro V B m f
    show (pushAll H (V + 1) _ _ _ rest).stats = _
    rw [ih]
    show (f.stats ++ [_]) ++ _ = _
    rw [List.append_assoc]; rfl

theorem pushAll_values {infos : List StepInfo} : ∀ {V : Nat} {B m f}, Run H V B m ver infos →
    (∀ v k, (pushAll H V B m f infos).nodeBatch.values.get? (v, k) =
      (if V ≤ v then infos[v - V]?.bind (fun i => lastWrite i.ws k) else none).or
        (f.nodeBatch.values.get? (v, k))) ∧
    (f.nodeBatch.values.NodupKeys → (pushAll H V B m f infos).nodeBatch.values.NodupKeys) := by
  induction infos generalizing ver with
  | nil => intro V B m f _; exact ⟨fun v k => by simp [pushAll], id⟩
  | cons i rest ih =>
    intro V B m f hr
    obtain ⟨hr', hvo⟩ : Run H (V + 1) (over i.N B) (updAll H m i.ws) i.ver rest ∧ ValsOk V i.ws i.vc := by
      cases hr with
      | cons _ hr _ hvo => exact ⟨hr, hvo⟩
    obtain ⟨a1, a2⟩ := ih (V := V + 1) (B := over i.N B) (m := updAll H m i.ws)
      (f := f.push V i.N i.vc i.S (i.S.countP (leafIn B)) (sh H (updAll H m i.ws) [])) hr'
    refine ⟨fun v k => ?_, fun hf => a2 (hf.extend _)⟩
    show (pushAll H (V + 1) _ _ _ rest).nodeBatch.values.get? (v, k) = _
    rw [a1]
    unfold Frozen.push
    dsimp only
    rw [AMap.get?_extend _ hvo.nodup, hvo.get]
    by_cases hv : v = V
    · subst hv
      rw [if_neg (by omega), if_pos rfl, if_pos (Nat.le_refl _)]
      simp only [AMap.get?_nil, Option.or_none, Nat.sub_self, List.getElem?_cons_zero, Option.bind_some,
        Option.none_or]
      cases lastWrite i.ws k <;> rfl
    · rw [if_neg hv]
      simp only [AMap.get?_nil, Option.or_none]
      by_cases hlt : V + 1 ≤ v
      · rw [if_pos hlt, if_pos (by omega), show v - V = (v - (V + 1)) + 1 by omega]
        simp
      · rw [if_neg hlt, if_neg (by omega)]

end

/-- Values of the store: one entry per version whose value set writes the key, oldest first. -/
structure ValInv (vals : AMap KeyHash (List (Version × Option Value))) (hist : List ValueSet) : Prop where
  sorted : ∀ k, (Store.histOf vals k).Pairwise (fun a b => a.1 < b.1)
  mem : ∀ k v x, (v, x) ∈ Store.histOf vals k ↔
    (hist[v]?.bind (fun ws => lastWrite ws k)) = some x

/-- The invariant of a store after the value sets `hist` (one per version), readable from `low`. -/
structure SysInv (H : Hasher) (s : Store) (hist : List ValueSet) (low : Nat) : Prop where
  tree : ∃ M W, HistInv H s.nodes.get? s.stale hist.length low M W ∧
    (0 < hist.length → W (hist.length - 1) [] = hist.length - 1) ∧
    (∀ i, i < hist.length → M i = entriesAfter H hist (i + 1)) ∧ FreshInv hist M W ∧ VerInv H hist M W
  nodup : s.nodes.NodupKeys
  vals : ValInv s.values hist

theorem entriesAfter_nodup (H : Hasher) (hist : List ValueSet) (i : Nat) : NodupE (entriesAfter H hist i) := by
  unfold entriesAfter
  generalize hist.take i = l
  have : ∀ (l : List ValueSet) (m : List Entry), NodupE m → NodupE (l.foldl (updAll H) m) := by
    intro l
    induction l with
    | nil => intro m h; exact h
    | cons w l ih => intro m h; exact ih _ (h.updAll w)
  exact this l [] (by simp [NodupE])

theorem entriesAfter_append_le (H : Hasher) (hist sets : List ValueSet) {i : Nat} (hi : i ≤ hist.length) :
    entriesAfter H (hist ++ sets) i = entriesAfter H hist i := by
  unfold entriesAfter; rw [List.take_append_of_le_length hi]

theorem entriesAfter_append (H : Hasher) (hist sets : List ValueSet) (j : Nat) :
    entriesAfter H (hist ++ sets) (hist.length + j) =
      (sets.take j).foldl (updAll H) (entriesAfter H hist hist.length) := by
  unfold entriesAfter
  rw [List.take_length_add_append, List.foldl_append, List.take_length]

section
variable {H : Hasher} {s : Store} {hist : List ValueSet} {low : Nat}

theorem SysInv.init (ow : Bool) : SysInv H (Store.new ow) [] 0 := by
  refine ⟨⟨fun _ => [], fun _ _ => 0, ?_, by simp, by simp, by intro i hi; simp at hi, by intro i hi; simp at hi⟩, AMap.nodupKeys_nil, ⟨?_, ?_⟩⟩
  · exact HistInv.init
  · intro k; simp [Store.histOf, Store.new]
  · intro k v x; simp [Store.histOf, Store.new]

theorem reader_eq (s : Store) : s.reader.getNodeOption = nb s.nodes.get? := rfl

/-- The store is ready for the next version. -/
theorem HistInv.ready {G st n low M W} (h : HistInv H G st n low M W)
    (hw : 0 < n → W (n - 1) [] = n - 1) :
    Ready H (nb G) n (cur M n) (if n = 0 then fun _ => 0 else W (n - 1)) := by
  have hnone : ∀ w q, n ≤ w → nb G ⟨w, q⟩ = .ok none := by
    intro w q hw
    unfold nb
    cases hg : G ⟨w, q⟩ with
    | none => rfl
    | some nd =>
      have h1 : w < n := h.lt _ nd hg
      omega
  by_cases h0 : n = 0
  · subst h0
    refine ⟨by simp [cur, NodupE], fun _ => ⟨by simp [cur], hnone _ _ (by omega)⟩, by omega, ?_, by simp,
      fun _ w hw _ => hnone w [] hw⟩
    intro q _ hq
    simp only [cur, if_true] at hq
    exact absurd hq not_pres_of_nil
  · simp only [cur, h0, if_false]
    refine ⟨h.nodup _ (by omega), fun h' => absurd h' h0, fun _ => h.tree _ h.lowle (by omega), ?_, hw (by omega),
      fun _ w hw _ => hnone w [] hw⟩
    intro q _ hq
    have := h.wle (n - 1) (by omega) q hq
    exact ⟨by omega, .inl (by omega)⟩

theorem cur_entries {M : Nat → List Entry} (hM : ∀ i, i < hist.length → M i = entriesAfter H hist (i + 1)) :
    cur M hist.length = entriesAfter H hist hist.length := by
  unfold cur
  split
  · next h => rw [h]; simp [entriesAfter]
  · next h => rw [hM _ (by omega), Nat.sub_add_cancel (by omega)]

theorem values_step {vals : AMap KeyHash (List (Version × Option Value))} (hv : ValInv vals hist)
    (sets : List ValueSet) (b : AMap (Version × KeyHash) (Option Value)) (hb : b.NodupKeys)
    (hget : ∀ v k, b.get? (v, k) =
      if hist.length ≤ v then sets[v - hist.length]?.bind (fun ws => lastWrite ws k) else none) :
    ∃ vals', Store.insertValues (b.mergeSort Store.valueKeyLe) vals = .ok vals' ∧
      ValInv vals' (hist ++ sets) := by
  have hperm := List.mergeSort_perm b Store.valueKeyLe
  have hsorted := List.pairwise_mergeSort Store.valueKeyLe_trans Store.valueKeyLe_total b
  have hnd : AMap.NodupKeys (b.mergeSort Store.valueKeyLe) := by
    unfold AMap.NodupKeys; rw [(hperm.map Prod.fst).nodup_iff]; exact hb
  have hmem : ∀ v k x, ((v, k), x) ∈ b.mergeSort Store.valueKeyLe ↔
      hist.length ≤ v ∧ sets[v - hist.length]?.bind (fun ws => lastWrite ws k) = some x := by
    intro v k x
    rw [hperm.mem_iff, AMap.mem_iff_get? hb, hget]
    split
    · next h => simp [h]
    · next h => simp [h]
  have hlt : ∀ k, ∀ o ∈ Store.histOf vals k, o.1 < hist.length := by
    rintro k ⟨v, x⟩ ho
    rw [hv.mem] at ho
    cases hg : hist[v]? with
    | none => simp [hg] at ho
    | some ws => exact (List.getElem?_eq_some_iff.1 hg).1
  obtain ⟨vals', a1, a2⟩ := Store.insertValues_ok _ vals hsorted hnd (by
    rintro ⟨⟨v, k⟩, x⟩ he o ho
    have h1 := hlt k o ho
    have h2 := ((hmem v k x).1 he).1
    dsimp only; omega)
  refine ⟨vals', a1, fun k => ?_, fun k v x => ?_⟩
  · rw [a2, List.pairwise_append]
    refine ⟨hv.sorted k, ?_, ?_⟩
    · rw [List.pairwise_map]
      have hf : (List.filter (fun e => decide (e.1.2 = k)) (b.mergeSort Store.valueKeyLe)).Pairwise
          (fun a b => Store.valueKeyLe a b = true) := hsorted.filter _
      have hne : (List.filter (fun e => decide (e.1.2 = k)) (b.mergeSort Store.valueKeyLe)).Pairwise
          (fun a b => a.1 ≠ b.1) := by
        have := List.pairwise_map.1 hnd
        exact this.filter _
      refine List.Pairwise.imp_of_mem ?_ (hf.and hne)
      rintro ⟨⟨v, k1⟩, x⟩ ⟨⟨v', k2⟩, x'⟩ h1 h2 ⟨h3, h4⟩
      simp only [List.mem_filter, decide_eq_true_eq] at h1 h2
      simp only [Store.valueKeyLe, Bool.or_eq_true, decide_eq_true_eq, Bool.and_eq_true] at h3
      rcases h3 with h3 | ⟨h3, -⟩
      · exact h3
      · exact absurd (by rw [h3, h1.2, h2.2]) h4
    · intro a ha b' hb'
      obtain ⟨⟨⟨v, k1⟩, x⟩, he, rfl⟩ := List.mem_map.1 hb'
      simp only [List.mem_filter] at he
      have h1 := hlt k a ha
      have h2 := ((hmem v k1 x).1 he.1).1
      dsimp only; omega
  · rw [a2, List.mem_append, hv.mem]
    have : (v, x) ∈ ((b.mergeSort Store.valueKeyLe).filter (fun e => decide (e.1.2 = k))).map (fun e => (e.1.1, e.2)) ↔
        ((v, k), x) ∈ b.mergeSort Store.valueKeyLe := by
      rw [List.mem_map]
      constructor
      · rintro ⟨⟨⟨v', k'⟩, x'⟩, he, heq⟩
        simp only [List.mem_filter, decide_eq_true_eq] at he
        cases heq
        obtain ⟨h1, h2⟩ := he
        subst h2; exact h1
      · intro he
        exact ⟨_, List.mem_filter.2 ⟨he, by simp⟩, rfl⟩
    rw [this, hmem]
    by_cases hvl : v < hist.length
    · rw [List.getElem?_append_left hvl]
      constructor
      · rintro (h | ⟨h, -⟩)
        · exact h
        · omega
      · exact .inl
    · rw [List.getElem?_append_right (by omega), List.getElem?_eq_none (by omega : hist.length ≤ v)]
      constructor
      · rintro (h | ⟨-, h⟩)
        · simp at h
        · exact h
      · intro h; exact .inr ⟨by omega, h⟩

/-- What one successful `put_value_sets` returns, and what writing its batch does. -/
structure CommitRes (H : Hasher) (s : Store) (hist sets : List ValueSet) (low : Nat)
    (hs : List Digest) (b : TreeUpdateBatch) (s' : Store) : Prop where
  inv : SysInv H s' (hist ++ sets) low
  hashes : hs = (List.range sets.length).map
    (fun j => sh H (entriesAfter H (hist ++ sets) (hist.length + j + 1)) [])
  nodes : ∀ k, s'.nodes.get? k = (b.nodeBatch.nodes.get? k).or (s.nodes.get? k)
  nodeVer : ∀ k nd, b.nodeBatch.nodes.get? k = some nd → hist.length ≤ k.version ∧ s.nodes.get? k = none
  stale : s'.stale = s.stale ++ b.staleNodeIndexBatch
  ow : s'.allowOverwrite = s.allowOverwrite
  preimages : s'.preimages = s.preimages
  values : ∀ v k, b.nodeBatch.values.get? (v, k) =
    if hist.length ≤ v then sets[v - hist.length]?.bind (fun ws => lastWrite ws k) else none

theorem hashAll_eq (H : Hasher) (infos : List StepInfo) : ∀ m, hashAll H m infos =
    (List.range infos.length).map (fun j => sh H (((infos.map StepInfo.ws).take (j + 1)).foldl (updAll H) m) []) := by
  induction infos with
  | nil => intro m; rfl
  | cons i rest ih =>
    intro m
    rw [hashAll, ih, List.length_cons, List.range_succ_eq_map, List.map_cons, List.map_map]
    congr 1

/-- Writing back what a run of versions has frozen. -/
theorem SysInv.commitRun (h : SysInv H s hist low) (sets : List ValueSet) :
    ∃ ver, Ready H (nb s.nodes.get?) hist.length (entriesAfter H hist hist.length) ver ∧
    ∀ (tc' : TreeCache) (infos : List StepInfo), infos.map StepInfo.ws = sets →
      Run H hist.length (nb s.nodes.get?) (entriesAfter H hist hist.length) ver infos →
      tc'.frozen = pushAll H hist.length (nb s.nodes.get?) (entriesAfter H hist hist.length) Frozen.empty infos →
    ∃ s', s.writeTreeUpdateBatch tc'.finish.2 = .ok s' ∧
      CommitRes H s hist sets low tc'.finish.1 tc'.finish.2 s' ∧
      (0 < hist.length → ver [] = hist.length - 1 ∧
          TreeAt H (nb s.nodes.get?) (hist.length - 1) (entriesAfter H hist hist.length) ver) ∧
      tc'.finish.2.nodeBatch.nodes.NodupKeys ∧
      (∀ k, s'.nodes.get? k = foldG s.nodes.get? infos k) ∧
      (∀ k, tc'.finish.2.nodeBatch.nodes.get? k = foldG (fun _ => none) infos k) ∧
      tc'.finish.2.staleNodeIndexBatch = stAll hist.length infos ∧
      tc'.finish.2.nodeStats = statAll H (nb s.nodes.get?) infos := by
  obtain ⟨⟨M, W, hI, hW, hM, hFr⟩, hnd, hval⟩ := h
  have hready := hI.ready hW
  rw [cur_entries hM] at hready
  refine ⟨_, hready, ?_⟩
  intro tc' infos b2 b3 b4
  have hlen : infos.length = sets.length := by rw [← b2]; simp
  obtain ⟨p1, p2⟩ := pushAll_nodes (H := H) (V := hist.length) (B := nb s.nodes.get?)
    (m := entriesAfter H hist hist.length) (f := Frozen.empty) b3.nodup
  have p3 := pushAll_keys (f := Frozen.empty) b3
  have p4 := pushAll_stale (f := Frozen.empty) b3 (by simp [Frozen.empty])
  obtain ⟨p5, p6⟩ := pushAll_values (H := H) (f := Frozen.empty) b3
  obtain ⟨M', W', c1, c2, c3, c4⟩ := b3.hist hI (cur_entries hM).symm (by
    intro h0; rw [if_neg (by omega)]) (entriesAfter_nodup _ _ _) rfl hFr
  have hF : tc'.finish.2.nodeBatch = tc'.frozen.nodeBatch := rfl
  -- values
  have hvals : ∀ v k, tc'.frozen.nodeBatch.values.get? (v, k) =
      if hist.length ≤ v then sets[v - hist.length]?.bind (fun ws => lastWrite ws k) else none := by
    intro v k
    rw [b4, p5]
    simp only [Frozen.empty, AMap.get?_nil, Option.or_none, ← b2, List.getElem?_map]
    split
    · cases infos[v - hist.length]? <;> rfl
    · rfl
  obtain ⟨vals', v1, v2⟩ := values_step hval sets tc'.frozen.nodeBatch.values (by
    rw [b4]; exact p6 AMap.nodupKeys_nil) hvals
  have hnone : ∀ k nd, tc'.frozen.nodeBatch.nodes.get? k = some nd →
      hist.length ≤ k.version ∧ s.nodes.get? k = none := by
    intro k nd hk
    rw [b4] at hk
    rcases p3 k nd hk with h | ⟨h, -⟩
    · simp [Frozen.empty] at h
    · refine ⟨h, ?_⟩
      cases hg : s.nodes.get? k with
      | none => rfl
      | some nd' => have := hI.lt k nd' hg; omega
  have hndN : tc'.frozen.nodeBatch.nodes.NodupKeys := by rw [b4]; exact p2 AMap.nodupKeys_nil
  have hins := Store.insertNodes_ok s.allowOverwrite tc'.frozen.nodeBatch.nodes s.nodes hndN (by
    rintro ⟨k, nd⟩ he
    exact (hnone k nd (AMap.get?_of_mem hndN he)).2)
  have hst : tc'.frozen.stale = stAll hist.length infos := by
    rw [b4, p4]; simp [Frozen.empty]
  have hstn : (s.stale ++ tc'.frozen.stale).Nodup := by
    rw [hst]
    exact (List.pairwise_map.1 c1.staleNodup).imp (fun h e => h (congrArg _ e))
  have hG : (AMap.extend s.nodes tc'.frozen.nodeBatch.nodes).get? = foldG s.nodes.get? infos := by
    have := p1 s.nodes.get?
    rw [← b4] at this
    have h2 : overG Frozen.empty.nodeBatch.nodes s.nodes.get? = s.nodes.get? := by
      funext k; rfl
    rw [h2] at this
    rw [← this]
    funext k
    rw [AMap.get?_extend _ hndN]; unfold overG
    cases tc'.frozen.nodeBatch.nodes.get? k <;> rfl
  refine ⟨{ s with
      nodes := AMap.extend s.nodes tc'.frozen.nodeBatch.nodes
      values := vals'
      stale := s.stale ++ tc'.frozen.stale }, ?_, ?_, fun h0 => ?_, hndN,
      fun k => by rw [hG], fun k => ?_, hst, ?_⟩
  · unfold Store.writeTreeUpdateBatch Store.writeNodeBatch
    rw [hF, hins, ok_bind, v1]
    simp only [ok_bind]
    show (Store.insertStale tc'.frozen.stale s.stale >>= _) = _
    rw [Store.insertStale_ok _ _ hstn]; rfl
  · refine ⟨⟨?_, ?_, v2⟩, ?_, ?_, hnone, rfl, rfl, rfl, hvals⟩
    · have c1' : HistInv H (AMap.extend s.nodes tc'.frozen.nodeBatch.nodes).get? (s.stale ++ tc'.frozen.stale)
          (hist ++ sets).length low M' W' := by
        rw [hG, hst, List.length_append, ← hlen]; exact c1
      have hM' : ∀ i, i < (hist ++ sets).length → M' i = entriesAfter H (hist ++ sets) (i + 1) := by
        intro i hi
        rw [List.length_append] at hi
        by_cases hlt : i < hist.length
        · rw [(c2 i hlt).1, hM i hlt, entriesAfter_append_le]; omega
        · have := c3 (i - hist.length) (by omega)
          rw [show hist.length + (i - hist.length) = i by omega] at this
          rw [this, b2, show i + 1 = hist.length + (i - hist.length + 1) by omega, entriesAfter_append]
      by_cases h0 : (hist ++ sets).length = 0
      · exact ⟨M', W', c1', by omega, hM', b2 ▸ c4⟩
      · refine ⟨M', _, c1'.resetRoot (by omega), by intro _; rw [updN_self, setVer_self], hM', ?_⟩
        have hc4 : FreshInv (hist ++ sets) M' W' ∧ VerInv H (hist ++ sets) M' W' := b2 ▸ c4
        refine ⟨?_, hc4.2.of_eq fun i q hq => by
          unfold updN; split
          · next h => rw [setVer_ne hq, h]
          · rfl⟩
        intro i hi q hq hp u hu
        refine hc4.1 i hi q hq hp u ?_
        by_cases hin : i = (hist ++ sets).length - 1
        · rw [hin, updN_self, setVer_ne hq] at hu
          rw [hin]; exact hu
        · rwa [updN_ne hin] at hu
    · exact hnd.extend _
    · show tc'.frozen.rootHashes = _
      rw [b4, pushAll_hashes, hashAll_eq, hlen, b2]
      simp only [Frozen.empty, List.nil_append]
      apply List.map_congr_left
      intro j hj
      rw [show hist.length + j + 1 = hist.length + (j + 1) by omega, entriesAfter_append]
    · intro k
      show (AMap.extend _ _).get? k = _
      rw [AMap.get?_extend _ hndN]
      show _ = (tc'.frozen.nodeBatch.nodes.get? k).or _
      cases tc'.frozen.nodeBatch.nodes.get? k <;> rfl
  · rw [if_neg (by omega)]
    refine ⟨hW h0, ?_⟩
    have := hI.tree (hist.length - 1) hI.lowle (by omega)
    rwa [hM _ (by omega), show hist.length - 1 + 1 = hist.length by omega] at this
  · have := congrFun (p1 (fun _ => none)) k
    rw [← b4] at this
    show tc'.frozen.nodeBatch.nodes.get? k = _
    have h2 : overG Frozen.empty.nodeBatch.nodes (fun _ => none) = (fun _ => none) := by funext k; rfl
    rw [h2] at this
    rw [← this]
    unfold overG
    cases tc'.frozen.nodeBatch.nodes.get? k <;> rfl
  · show tc'.frozen.stats = _
    rw [b4, pushAll_stats]; simp [Frozen.empty]

theorem SysInv.commit' (h : SysInv H s hist low) (wp : Bool) (sets : List ValueSet)
    (hle : hist.length + sets.length ≤ preGenesisVersion) :
    ∃ tc pss tc' s' infos, TreeCache.new s.reader hist.length = .ok tc ∧
      putSets H wp hist.length sets tc = .ok (pss, tc') ∧
      s.writeTreeUpdateBatch tc'.finish.2 = .ok s' ∧
      CommitRes H s hist sets low tc'.finish.1 tc'.finish.2 s' ∧
      (wp = true → ProofSets H (entriesAfter H hist hist.length) sets pss) ∧
      pss.length = sets.length ∧ infos.map StepInfo.ws = sets ∧
      (∃ ver, Run H hist.length (nb s.nodes.get?) (entriesAfter H hist hist.length) ver infos ∧
        (0 < hist.length → ver [] = hist.length - 1 ∧
          TreeAt H (nb s.nodes.get?) (hist.length - 1) (entriesAfter H hist hist.length) ver)) ∧
      tc'.finish.2.nodeBatch.nodes.NodupKeys ∧
      (∀ k, s'.nodes.get? k = foldG s.nodes.get? infos k) ∧
      (∀ k, tc'.finish.2.nodeBatch.nodes.get? k = foldG (fun _ => none) infos k) ∧
      tc'.finish.2.staleNodeIndexBatch = stAll hist.length infos ∧
      tc'.finish.2.nodeStats = statAll H (nb s.nodes.get?) infos := by
  obtain ⟨ver, hready, hrun⟩ := h.commitRun (H := H) sets
  obtain ⟨tc, pss, tc', infos, b0, b1, b2, b3, b4, b5, b6⟩ := putSets_ready (R := s.reader) hready wp sets (by omega)
  obtain ⟨s', c1, c2, c3, c4⟩ := hrun tc' infos b2 b3 b4
  exact ⟨tc, pss, tc', s', infos, b0, b1, c1, c2, b5, b6, b2, ⟨ver, b3, c3⟩, c4⟩

/-- `put_value_sets` + write on a well-formed store. -/
theorem SysInv.commit (h : SysInv H s hist low) (sets : List ValueSet)
    (hle : hist.length + sets.length ≤ preGenesisVersion) :
    ∃ hs b s', putValueSets H s.reader sets hist.length = .ok (hs, b) ∧
      s.writeTreeUpdateBatch b = .ok s' ∧ CommitRes H s hist sets low hs b s' := by
  obtain ⟨tc, pss, tc', s', infos, a0, a1, a2, a3, -⟩ := h.commit' false sets hle
  refine ⟨_, _, s', ?_, a2, a3⟩
  unfold putValueSets
  rw [a0, ok_bind, a1]; rfl

/-- `batch_put_value_sets` + write on a well-formed store. -/
theorem SysInv.batch' (h : SysInv H s hist low) (sets : List (List (KeyHash × Value))) (nodeHashes)
    (hn : ∀ s ∈ sets, s ≠ [])
    (hc : CachesFor H (entriesAfter H hist hist.length) sets (cachesOf sets nodeHashes))
    (hle : hist.length + sets.length ≤ preGenesisVersion) :
    ∃ tc tc' s' infos, TreeCache.new s.reader hist.length = .ok tc ∧
      batchSets H hist.length sets (cachesOf sets nodeHashes) tc = .ok tc' ∧
      s.writeTreeUpdateBatch tc'.finish.2 = .ok s' ∧
      CommitRes H s hist (sets.map someSet) low tc'.finish.1 tc'.finish.2 s' ∧
      infos.map StepInfo.ws = sets.map someSet ∧
      (∃ ver, Run H hist.length (nb s.nodes.get?) (entriesAfter H hist hist.length) ver infos ∧
        (0 < hist.length → ver [] = hist.length - 1 ∧
          TreeAt H (nb s.nodes.get?) (hist.length - 1) (entriesAfter H hist hist.length) ver)) ∧
      tc'.finish.2.nodeBatch.nodes.NodupKeys ∧
      (∀ k, s'.nodes.get? k = foldG s.nodes.get? infos k) ∧
      (∀ k, tc'.finish.2.nodeBatch.nodes.get? k = foldG (fun _ => none) infos k) ∧
      tc'.finish.2.staleNodeIndexBatch = stAll hist.length infos ∧
      tc'.finish.2.nodeStats = statAll H (nb s.nodes.get?) infos := by
  obtain ⟨ver, hready, hrun⟩ := h.commitRun (H := H) (sets.map someSet)
  obtain ⟨tc, tc', infos, b0, b1, b2, b3, b4⟩ := batchSets_ready (R := s.reader) hready sets nodeHashes hn hc hle
  obtain ⟨s', c1, c2, c3, c4⟩ := hrun tc' infos b2 b3 b4
  exact ⟨tc, tc', s', infos, b0, b1, c1, c2, b2, ⟨ver, b3, c3⟩, c4⟩

theorem SysInv.batch (h : SysInv H s hist low) (sets : List (List (KeyHash × Value))) (nodeHashes)
    (hn : ∀ s ∈ sets, s ≠ [])
    (hc : CachesFor H (entriesAfter H hist hist.length) sets (cachesOf sets nodeHashes))
    (hle : hist.length + sets.length ≤ preGenesisVersion) :
    ∃ hs b s', batchPutValueSets H s.reader sets nodeHashes hist.length = .ok (hs, b) ∧
      s.writeTreeUpdateBatch b = .ok s' ∧ CommitRes H s hist (sets.map someSet) low hs b s' := by
  obtain ⟨tc, tc', s', infos, a0, a1, a2, a3, -⟩ := h.batch' sets nodeHashes hn hc hle
  refine ⟨_, _, s', ?_, a2, a3⟩
  unfold batchPutValueSets
  rw [a0, ok_bind]
  show (batchSets H hist.length sets (cachesOf sets nodeHashes) tc >>= _) = _
  rw [a1]; rfl

theorem batch_nonempty {R : Reader} {sets : List (List (KeyHash × Value))} {nodeHashes} {V : Nat} {r}
    (h : batchPutValueSets H R sets nodeHashes V = .ok r) : ∀ s ∈ sets, s ≠ [] := by
  unfold batchPutValueSets at h
  obtain ⟨tc, -, h⟩ := bind_ok_inv h
  obtain ⟨tc', h, -⟩ := bind_ok_inv h
  exact batchSets_nonempty _ _ _ _ _ h

theorem SysInv.purge (h : SysInv H s hist low) (r : Nat) :
    ∃ s', s.purgeStaleNodes r = .ok s' ∧
      SysInv H s' hist (max low (min r (hist.length - 1))) ∧ s'.values = s.values ∧
      s'.stale = s.stale.filter (fun i => decide (¬ i.staleSince ≤ r)) ∧
      s'.allowOverwrite = s.allowOverwrite ∧
      ∀ k, s'.nodes.get? k = if ∃ x ∈ s.stale, x.staleSince ≤ r ∧ x.nodeKey = k then none
        else s.nodes.get? k := by
  obtain ⟨⟨M, W, hI, hW, hM, hFr⟩, hnd, hval⟩ := h
  obtain ⟨s', a1, a2, a3, a4, a5, a6, a7⟩ := Store.purgeLoop_ok
    (s.stale.filter (fun i => decide (i.staleSince ≤ r))) s
    (hI.staleNodup.sublist (List.filter_sublist.map _)) (by
      intro i hi
      exact (hI.stale i (List.mem_filter.1 hi).1).2.2.1)
  have hs' : s'.stale = s.stale.filter (fun i => decide (¬ i.staleSince ≤ r)) := by
    rw [a5]
    apply List.filter_congr
    intro x hx
    simp [List.mem_filter, hx]
  have hg : ∀ k, s'.nodes.get? k = if ∃ x ∈ s.stale, x.staleSince ≤ r ∧ x.nodeKey = k then none
        else s.nodes.get? k := by
    intro k
    rw [a7]
    have : (∃ x ∈ s.stale.filter (fun i => decide (i.staleSince ≤ r)), x.nodeKey = k) ↔
        ∃ x ∈ s.stale, x.staleSince ≤ r ∧ x.nodeKey = k := by
      constructor
      · rintro ⟨x, hx, hk⟩
        simp only [List.mem_filter, decide_eq_true_eq] at hx
        exact ⟨x, hx.1, hx.2, hk⟩
      · rintro ⟨x, hx, hr, hk⟩
        exact ⟨x, by simp [List.mem_filter, hx, hr], hk⟩
    simp only [this]
  refine ⟨s', a1, ⟨⟨M, W, ?_, hW, hM, hFr⟩, a6 hnd, ?_⟩, a2, hs', a4, hg⟩
  · refine hI.purge r ?_ ?_ hg
    · intro x; rw [hs']; simp [List.mem_filter]
    · rw [hs']; exact List.filter_sublist
  · rw [a2]; exact hval

end
end Jmt
