import Verif.Proofs.PreGenesis
/-!
# Going on after the first call over a pre-genesis tree

The nodes of such a tree have version `u64::MAX` and those written later have small versions.  `PreInv` is the invariant kept by
any sequence of calls of `put_value_sets`, over any backend that writes what it is given.
-/
namespace Jmt
open Spec (Entry)

section
variable {H : Hasher}

def overF (G : Nodes) (B : NodeBase) : NodeBase := fun k =>
  match G k with
  | some n => .ok (some n)
  | none => B k

def foldB : NodeBase → List StepInfo → NodeBase
  | B, [] => B
  | B, i :: rest => foldB (over i.N B) rest

theorem foldB_overF (infos : List StepInfo) : ∀ (G : Nodes) (B : NodeBase), foldB (overF G B) infos = overF (foldG G infos) B := by
  induction infos with
  | nil => intro G B; rfl
  | cons i rest ih =>
    intro G B
    show foldB (over i.N (overF G B)) rest = overF (foldG (overG i.N G) rest) B
    rw [← ih]
    congr 1
    funext k
    unfold over overF overG
    cases i.N.get? k <;> rfl

theorem foldB_eq (infos : List StepInfo) (B : NodeBase) : foldB B infos = overF (foldG (fun _ => none) infos) B :=
  foldB_overF infos (fun _ => none) B

theorem foldB_same {infos : List StepInfo} {V : Nat} {B m ver} {B' : NodeBase} (hr : Run H V B m ver infos) {k : NodeKey}
    (hk : k.version < V ∨ V + infos.length ≤ k.version) : foldB B' infos k = B' k := by
  rw [foldB_eq]
  unfold overF
  rcases hk with hk | hk
  · rw [foldG_lt hr k hk]
  · rw [foldG_ge hr k hk]

/-- The trees of all versions of a run over any backend. -/
theorem Run.treesB {infos : List StepInfo} : ∀ {V : Nat} {B m ver}, Run H V B m ver infos →
    (∀ q, pres m [] q → Old V (ver q)) → V + infos.length ≤ preGenesisVersion →
    ∀ j, j < infos.length → ∃ ver', TreeAt H (foldB B infos) (V + j) (((infos.map StepInfo.ws).take (j + 1)).foldl (updAll H) m) ver' ∧
      ∀ q, pres (((infos.map StepInfo.ws).take (j + 1)).foldl (updAll H) m) [] q → ver' q < V + j + 1 ∨ ver' q = preGenesisVersion := by
  induction infos with
  | nil => intro V B m ver _ _ _ j hj; simp at hj
  | cons i rest ih =>
    intro V B m ver hr hold hle j hj
    simp only [List.length_cons] at hle hj
    cases hr with
    | cons d hr hfr hvo =>
      have ht := d.treeAt hold
      have hold2 : ∀ q, pres (updAll H m i.ws) [] q → i.ver q < V + 1 ∨ i.ver q = preGenesisVersion := by
        intro q hq
        rcases d.ver_old hold q hq with h | ⟨h1, h2⟩
        · omega
        · rcases h2 with h2 | h2 <;> omega
      cases j with
      | zero =>
        refine ⟨i.ver, ?_, by simpa using hold2⟩
        simp only [List.map_cons, List.take_succ_cons, List.take_zero, List.foldl_cons, List.foldl_nil, Nat.add_zero]
        have hsame : ∀ k : NodeKey, (k.version < V + 1 ∨ k.version = preGenesisVersion) → foldB B (i :: rest) k = over i.N B k := by
          intro k hk
          show foldB (over i.N B) rest k = _
          exact foldB_same hr (by omega)
        constructor
        · rw [hsame _ (.inl (Nat.lt_succ_self V))]
          exact ht.root
        · intro q h1 h2
          rw [hsame _ (hold2 q h2)]
          exact ht.node q h1 h2
      | succ j =>
        obtain ⟨ver', a1, a2⟩ := ih hr (fun q hq => ⟨by rcases hold2 q hq with h | h <;> omega, hold2 q hq⟩) (by omega) j (by omega)
        refine ⟨ver', ?_, ?_⟩
        · rw [show V + (j + 1) = V + 1 + j by omega]
          exact a1
        · intro q hq
          have := a2 q hq
          omega

/-- The entries after the value sets. -/
def preEntries (H : Hasher) (m : List Entry) (sets : List ValueSet) (i : Nat) : List Entry := (sets.take i).foldl (updAll H) m

theorem preEntries_append (m : List Entry) (sets more : List ValueSet) {i : Nat} (hi : i ≤ sets.length) :
    preEntries H m (sets ++ more) i = preEntries H m sets i := by
  unfold preEntries; rw [List.take_append_of_le_length hi]

theorem preEntries_add (m : List Entry) (sets more : List ValueSet) (i : Nat) :
    preEntries H m (sets ++ more) (sets.length + i) = (more.take i).foldl (updAll H) (preEntries H m sets sets.length) := by
  unfold preEntries
  rw [List.take_length_add_append, List.foldl_append, List.take_length]

/-- The versions `0 .. sets.length - 1` have been built over the pre-genesis tree of `m`. -/
structure PreInv (H : Hasher) (mp : Spec.Map) (m : List Entry) (R : Reader) (sets : List ValueSet) : Prop where
  nodup : NodupE m
  tree : ∀ j, j < sets.length → ∃ ver, TreeAt H R.getNodeOption j (preEntries H m sets (j + 1)) ver ∧
    ∀ q, pres (preEntries H m sets (j + 1)) [] q → ver q < j + 1 ∨ ver q = preGenesisVersion
  fresh : ∀ w, sets.length ≤ w → w < preGenesisVersion → R.getNodeOption ⟨w, []⟩ = .ok none
  value : ∀ j k, (∃ u wu, u ≤ j ∧ sets[u]? = some wu ∧ k ∈ wu.map Prod.fst) →
    R.getValueOption j k = .ok (Spec.stateAfter mp sets (j + 1) k)

theorem foldl_nodupE (sets : List ValueSet) : ∀ {m : List Entry}, NodupE m → NodupE (sets.foldl (updAll H) m) := by
  induction sets with
  | nil => intro m h; exact h
  | cons ws rest ih => intro m h; exact ih (h.updAll ws)

theorem PreInv.ready {mp m R} {sets : List ValueSet} (h : PreInv H mp m R sets) (hne : sets ≠ []) (hle : sets.length < preGenesisVersion) :
    ∃ ver, ReadyW True H R.getNodeOption sets.length (preEntries H m sets sets.length) ver ∧
      ∀ q, pres (preEntries H m sets sets.length) [] q → Old sets.length (ver q) := by
  have hpos : 0 < sets.length := List.length_pos_iff.2 hne
  obtain ⟨ver, h1, h2⟩ := h.tree (sets.length - 1) (by omega)
  rw [show sets.length - 1 + 1 = sets.length by omega] at h1 h2
  have hold : ∀ q, pres (preEntries H m sets sets.length) [] q → Old sets.length (setVer ver [] (sets.length - 1) q) := by
    intro q hp
    by_cases hq : q = []
    · subst hq
      rw [setVer_self]
      exact ⟨by omega, .inl (by omega)⟩
    · rw [setVer_ne hq]
      refine ⟨?_, h2 q hp⟩
      rcases h2 q hp with h | h <;> omega
  refine ⟨setVer ver [] (sets.length - 1), ⟨foldl_nodupE _ h.nodup, fun h0 => by omega, fun _ => ⟨?_, fun q hq hp => ?_⟩,
    fun q _ hp => hold q hp, setVer_self, fun _ => h.fresh⟩, hold⟩
  · rw [canonNode_setRoot]; exact h1.root
  · rw [canonNode_setRoot, setVer_ne hq]; exact h1.node q hq hp

/-- Writing what a run has frozen. -/
theorem PreInv.written {mp m R R'} {sets : List ValueSet} (h : PreInv H mp m R sets) {ver : List Nibble → Version} {infos : List StepInfo}
    {tc' : TreeCache} (hle : sets.length + infos.length ≤ preGenesisVersion)
    (hold : ∀ q, pres (preEntries H m sets sets.length) [] q → Old sets.length (ver q))
    (hrun : Run H sets.length R.getNodeOption (preEntries H m sets sets.length) ver infos)
    (hf : tc'.frozen = pushAll H sets.length R.getNodeOption (preEntries H m sets sets.length) Frozen.empty infos)
    (hw : Spec.Written tc'.finish.2.nodeBatch R' R) : PreInv H mp m R' (sets ++ infos.map StepInfo.ws) := by
  obtain ⟨p1, p2⟩ := pushAll_nodes (H := H) (V := sets.length) (B := R.getNodeOption) (m := preEntries H m sets sets.length)
    (f := Frozen.empty) hrun.nodup
  obtain ⟨p5, -⟩ := pushAll_values (H := H) (f := Frozen.empty) hrun
  have hbatch : ∀ k, tc'.finish.2.nodeBatch.nodes.get? k = foldG (fun _ => none) infos k := by
    intro k
    have := congrFun (p1 (fun _ => none)) k
    rw [← hf] at this
    have h2 : overG Frozen.empty.nodeBatch.nodes (fun _ => none) = (fun _ => none) := by funext k; rfl
    rw [h2] at this
    show tc'.frozen.nodeBatch.nodes.get? k = _
    rw [← this]
    unfold overG
    cases tc'.frozen.nodeBatch.nodes.get? k <;> rfl
  have hR' : R'.getNodeOption = foldB R.getNodeOption infos := by
    funext k
    rw [foldB_eq]
    unfold overF
    rw [← hbatch]
    cases hg : tc'.finish.2.nodeBatch.nodes.get? k with
    | some n => exact hw.new k n hg
    | none => exact hw.old k hg
  have hvals : ∀ v k, tc'.finish.2.nodeBatch.values.get? (v, k) =
      if sets.length ≤ v then (infos.map StepInfo.ws)[v - sets.length]?.bind (fun ws => lastWrite ws k) else none := by
    intro v k
    show tc'.frozen.nodeBatch.values.get? (v, k) = _
    rw [hf, p5]
    simp only [Frozen.empty, AMap.get?_nil, Option.or_none, List.getElem?_map]
    split
    · cases infos[v - sets.length]? <;> rfl
    · rfl
  have hlen : (sets ++ infos.map StepInfo.ws).length = sets.length + infos.length := by simp
  have hboth : ∀ v k, (sets ++ infos.map StepInfo.ws)[v]?.bind (fun ws => lastWrite ws k) =
      if sets.length ≤ v then tc'.finish.2.nodeBatch.values.get? (v, k) else sets[v]?.bind (fun ws => lastWrite ws k) := by
    intro v k
    by_cases hv : sets.length ≤ v
    · rw [if_pos hv, hvals, if_pos hv, List.getElem?_append_right hv]
    · rw [if_neg hv, List.getElem?_append_left (by omega)]
  refine ⟨h.nodup, fun j hj => ?_, fun w h1 h2 => ?_, fun j k hk => ?_⟩
  · rw [hlen] at hj
    by_cases hjl : j < sets.length
    · obtain ⟨ver', a1, a2⟩ := h.tree j hjl
      rw [preEntries_append _ _ _ (by omega)]
      refine ⟨ver', ⟨?_, fun q hq hp => ?_⟩, a2⟩
      · rw [hR', foldB_same hrun (.inl hjl)]; exact a1.root
      · rw [hR', foldB_same hrun (by
          show ver' q < _ ∨ _ ≤ ver' q
          rcases a2 q hp with h | h <;> omega)]
        exact a1.node q hq hp
    · obtain ⟨ver', a1, a2⟩ := hrun.treesB hold hle (j - sets.length) (by omega)
      rw [show j + 1 = sets.length + (j - sets.length + 1) by omega, preEntries_add, hR']
      rw [show sets.length + (j - sets.length) = j by omega] at a1 a2
      refine ⟨ver', a1, fun q hq => ?_⟩
      have := a2 q hq
      omega
  · rw [hlen] at h1
    rw [hR', foldB_same hrun (.inr h1)]
    exact h.fresh w (by omega) h2
  · obtain ⟨w, x, g1, g2, g3, g4⟩ := last_set (mp := mp) j hk
    rw [g4]
    by_cases hwl : sets.length ≤ w
    · refine hw.newValue j k w x (by rw [hboth, if_pos hwl] at g2; exact g2) g1 (fun u x' b1 b2 => g3 u x' ?_ b2)
      rw [hboth]
      by_cases hu : sets.length ≤ u
      · rw [if_pos hu]; exact b1
      · rw [hvals, if_neg hu] at b1; cases b1
    · rw [hboth, if_neg hwl] at g2
      rw [hw.oldValue j k (by
        intro u x' hu
        apply Classical.byContradiction
        intro hc
        have hul : sets.length ≤ u := by
          apply Classical.byContradiction
          intro hul
          rw [hvals, if_neg hul] at hu; cases hu
        have := g3 u x' (by rw [hboth, if_pos hul]; exact hu) (by omega)
        omega)]
      have hk' : ∃ u wu, u ≤ j ∧ sets[u]? = some wu ∧ k ∈ wu.map Prod.fst := by
        cases hsw : sets[w]? with
        | none => rw [hsw] at g2; cases g2
        | some wu =>
          rw [hsw] at g2
          exact ⟨w, wu, g1, hsw, lastWrite_isSome.1 (by
            show (lastWrite wu k).isSome = true
            rw [show lastWrite wu k = some x from g2]; rfl)⟩
      rw [h.value j k hk']
      obtain ⟨w', x', e1, e2, e3, e4⟩ := last_set (mp := mp) j hk'
      have hw'l : w' < sets.length := by
        apply Classical.byContradiction
        intro hc
        rw [List.getElem?_eq_none (by omega)] at e2
        cases e2
      have l1 : w ≤ w' := e3 w x g2 g1
      have l2 : w' ≤ w := g3 w' x' (by rw [hboth, if_neg (by omega)]; exact e2) e1
      obtain rfl : w = w' := by omega
      rw [g2] at e2
      cases e2
      rw [e4]

/-- One more call. -/
theorem PreInv.put {mp m R} {sets : List ValueSet} (h : PreInv H mp m R sets) (hne : sets ≠ []) (more : List ValueSet)
    (hle : sets.length + more.length < preGenesisVersion) :
    ∃ hs b, putValueSets H R more sets.length = .ok (hs, b) ∧
      hs = (List.range more.length).map (fun i => sh H (preEntries H m (sets ++ more) (sets.length + i + 1)) []) ∧
      ∀ R', Spec.Written b.nodeBatch R' R → PreInv H mp m R' (sets ++ more) := by
  obtain ⟨ver, hr, hold⟩ := h.ready hne (by omega)
  obtain ⟨tc, pss, tc', infos, a1, a2, a3, a4, a5, -, -⟩ := putSets_readyW (R := R) hr false more (.inl trivial) (by omega)
  have hlen : infos.length = more.length := by rw [← a3]; simp
  refine ⟨tc'.frozen.rootHashes, tc'.finish.2, ?_, ?_, fun R' hw => ?_⟩
  · unfold putValueSets
    simp only [a1, ok_bind, a2]
    rfl
  · rw [a5, pushAll_hashes, hashAll_eq, hlen, a3]
    simp only [Frozen.empty, List.nil_append]
    apply List.map_congr_left
    intro j _
    rw [show sets.length + j + 1 = sets.length + (j + 1) by omega, preEntries_add]
  · rw [← a3]
    exact h.written (by omega) hold a4 a5 hw

/-- The first call. -/
theorem pre_put {mp m} {R : Reader} (hl : Spec.Lists H mp m) (hne : m ≠ [])
    (ht : TreeAt H R.getNodeOption preGenesisVersion m (fun _ => preGenesisVersion))
    (hfresh : ∀ w, w < preGenesisVersion → R.getNodeOption ⟨w, []⟩ = .ok none)
    {ws : ValueSet} {rest : List ValueSet} (hL : Spec.TakesEffect mp ws) (hle : rest.length + 1 < preGenesisVersion) :
    ∃ hs b, putValueSets H R (ws :: rest) 0 = .ok (hs, b) ∧
      hs = (List.range (rest.length + 1)).map (fun i => sh H (preEntries H m (ws :: rest) (i + 1)) []) ∧
      ∀ R', Spec.Written b.nodeBatch R' R → PreInv H mp m R' (ws :: rest) := by
  obtain ⟨tc, pss, tc', infos, a1, a2, a3, a4, a5, -, -⟩ := pre_putSets (wp := false) (rest := rest) hl.nodup hne ht hfresh (leaves_of hl hL) (by omega)
  have hlen : infos.length = rest.length + 1 := by rw [← List.length_map (f := StepInfo.ws), a3]; rfl
  have h0 : PreInv H mp m R [] := ⟨hl.nodup, fun j hj => by simp at hj, fun w _ h => hfresh w h, by
    rintro j k ⟨u, wu, -, h, -⟩; simp at h⟩
  refine ⟨tc'.frozen.rootHashes, tc'.finish.2, ?_, ?_, fun R' hw => ?_⟩
  · unfold putValueSets
    simp only [a1, ok_bind, a2]
    rfl
  · rw [a5, pushAll_hashes, hashAll_eq, hlen, a3]
    simp only [Frozen.empty, List.nil_append]
    rfl
  · have := h0.written (ver := fun _ => preGenesisVersion) (infos := infos) (tc' := tc') (R' := R')
      (by simp only [List.length_nil]; omega) (fun _ _ => ⟨by decide, .inr rfl⟩) a4 a5 hw
    rw [a3] at this
    exact this

/-- The queries of a version whose tree and written values are there. -/
theorem pre_queries {mp m} {R : Reader} {sets : List ValueSet} (hl : Spec.Lists H mp m) {j : Nat} {ver' : List Nibble → Version}
    (t1 : TreeAt H R.getNodeOption j (preEntries H m sets (j + 1)) ver')
    (hval : ∀ k, (∃ u wu, u ≤ j ∧ sets[u]? = some wu ∧ k ∈ wu.map Prod.fst) →
      R.getValueOption j k = .ok (Spec.stateAfter mp sets (j + 1) k))
    {es : List Entry} (hes : Spec.Lists H (Spec.stateAfter mp sets (j + 1)) es) :
    getRootHash H R j = .ok (Spec.root H es) ∧ getLeafCount R j = .ok es.length ∧
    ∀ k, (Spec.stateAfter mp sets (j + 1) k = none ∨ ∃ u wu, u ≤ j ∧ sets[u]? = some wu ∧ k ∈ wu.map Prod.fst) →
      ∃ P, getWithProof H R k j = .ok (Spec.stateAfter mp sets (j + 1) k, P) ∧
        P.verify H (Spec.root H es) k (Spec.stateAfter mp sets (j + 1) k) = .ok () := by
  have hlj : Spec.Lists H (Spec.stateAfter mp sets (j + 1)) (preEntries H m sets (j + 1)) := lists_foldl _ hl
  have t2 : NodupE (preEntries H m sets (j + 1)) := foldl_nodupE _ hl.nodup
  have hperm := lists_perm hlj hes
  refine ⟨?_, ?_, fun k hk => ?_⟩
  · unfold getRootHash getRootNode getRootNodeOption
    have := t1.root
    rw [show NodeKey.root j = ⟨j, []⟩ from rfl, this, ok_bind, ok_bind, canonNode_hash t2, ← root_perm hperm, root_eq_sh]
    simp
  · unfold getLeafCount getRootNode getRootNodeOption
    have := t1.root
    rw [show NodeKey.root j = ⟨j, []⟩ from rfl, this, ok_bind, ok_bind, canonNode_leafCount]
    simp [hperm.length_eq]
  · refine ⟨specProof H (preEntries H m sets (j + 1)) k, ?_, ?_⟩
    · rw [getWithProof_spec t2 t1]
      cases hm : Spec.stateAfter mp sets (j + 1) k with
      | none =>
        have hno : ∀ vh, (k, vh) ∉ preEntries H m sets (j + 1) := by
          intro vh hc
          obtain ⟨x, hx, -⟩ := (hlj.mem k vh).1 hc
          rw [hm] at hx; cases hx
        cases hlf : (specProof H (preEntries H m sets (j + 1)) k).leaf with
        | none => rfl
        | some e =>
          have hne : e.1 ≠ k := by
            intro hk
            exact hno e.2 ((specProof_leaf_iff (H := H) t2 k e.2).1 (by rw [hlf, ← hk]))
          simp [gwpVal, hne, ok_bind]
      | some x =>
        have hmem : (k, H.hash x) ∈ preEntries H m sets (j + 1) := (hlj.mem k _).2 ⟨x, hm, rfl⟩
        rw [(specProof_leaf_iff (H := H) t2 k _).2 hmem]
        simp only [gwpVal, if_true, Reader.getValue, hval k (hk.resolve_left (by rw [hm]; simp)), hm, ok_bind]
    · rw [← root_perm hperm, root_eq_sh]
      cases hm : Spec.stateAfter mp sets (j + 1) k with
      | none =>
        refine specProof_verifies_nonexistence t2 fun vh hc => ?_
        obtain ⟨x, hx, -⟩ := (hlj.mem k vh).1 hc
        rw [hm] at hx; cases hx
      | some x => exact specProof_verifies_existence t2 ((hlj.mem k _).2 ⟨x, hm, rfl⟩)

/-- What the invariant says about the queries. -/
theorem PreInv.queries {mp m R} {sets : List ValueSet} (h : PreInv H mp m R sets) (hl : Spec.Lists H mp m) {j : Nat} (hj : j < sets.length)
    {es : List Entry} (hes : Spec.Lists H (Spec.stateAfter mp sets (j + 1)) es) :
    getRootHash H R j = .ok (Spec.root H es) ∧ getLeafCount R j = .ok es.length ∧
    ∀ k, (Spec.stateAfter mp sets (j + 1) k = none ∨ ∃ u wu, u ≤ j ∧ sets[u]? = some wu ∧ k ∈ wu.map Prod.fst) →
      ∃ P, getWithProof H R k j = .ok (Spec.stateAfter mp sets (j + 1) k, P) ∧
        P.verify H (Spec.root H es) k (Spec.stateAfter mp sets (j + 1) k) = .ok () := by
  obtain ⟨ver', t1, -⟩ := h.tree j hj
  exact pre_queries hl t1 (fun k => h.value j k) hes

theorem max_upto {p : Nat → Prop} (v : Nat) : ∀ w, p w → w ≤ v → ∃ m, p m ∧ m ≤ v ∧ ∀ u, p u → u ≤ v → u ≤ m := by
  induction v with
  | zero => intro w hw hle; exact ⟨0, by rwa [Nat.le_zero.1 hle] at hw, Nat.le_refl _, fun u _ h => h⟩
  | succ v ih =>
    intro w hw hle
    by_cases hp : p (v + 1)
    · exact ⟨v + 1, hp, Nat.le_refl _, fun u _ h => h⟩
    · have hne : w ≠ v + 1 := by rintro rfl; exact hp hw
      obtain ⟨m, h1, h2, h3⟩ := ih w hw (by omega)
      refine ⟨m, h1, by omega, fun u hu hle => ?_⟩
      have hne : u ≠ v + 1 := by rintro rfl; exact hp hu
      exact h3 u hu (by omega)

/-- Every batch can be written over every store. -/
theorem written_exists (b : NodeBatch) (R : Reader) : ∃ R', Spec.Written b R' R := by
  have h2 : ∀ e : Version × KeyHash, ∃ r : Except Err (Option Value),
      (∀ w x, b.values.get? (w, e.2) = some x → w ≤ e.1 →
        (∀ u x', b.values.get? (u, e.2) = some x' → u ≤ e.1 → u ≤ w) → r = .ok x) ∧
      ((∀ w x, b.values.get? (w, e.2) = some x → e.1 < w) → r = R.getValueOption e.1 e.2) := by
    rintro ⟨v, k⟩
    by_cases h : ∃ w, (∃ x, b.values.get? (w, k) = some x) ∧ w ≤ v
    · obtain ⟨w, hw, hle⟩ := h
      obtain ⟨m, ⟨x, hx⟩, hm, hmax⟩ := max_upto (p := fun w => ∃ x, b.values.get? (w, k) = some x) v w hw hle
      refine ⟨.ok x, fun w' x' hx' hle' hmax' => ?_, fun hno => ?_⟩
      · have : w' = m := Nat.le_antisymm (hmax w' ⟨x', hx'⟩ hle') (hmax' m x hx hm)
        dsimp only at hx'
        rw [this, hx] at hx'
        cases hx'
        rfl
      · have := hno m x hx
        dsimp only at this
        omega
    · exact ⟨R.getValueOption v k, fun w x hx hle _ => absurd ⟨w, ⟨x, hx⟩, hle⟩ h, fun _ => rfl⟩
  refine ⟨⟨over b.nodes R.getNodeOption, fun v k => Classical.choose (h2 (v, k)), R.getRightmostLeaf⟩, ?_, ?_, ?_, ?_⟩
  · intro k n h; show over _ _ k = _; unfold over; rw [h]
  · intro k h; show over _ _ k = _; unfold over; rw [h]
  · exact fun v k => (Classical.choose_spec (h2 (v, k))).1
  · exact fun v k => (Classical.choose_spec (h2 (v, k))).2

end
end Jmt
