import Verif.Spec.RootRetire
import Verif.Props.Writes
import Verif.Props.Crash
/-!
# Property C12, roots: exactly which root nodes are retired
-/
namespace Jmt
open Spec (Entry)

variable {H : Hasher} {ops : List Op} {y : Sys}

/-- The version of the root node a run works from when it comes to its set number `j`. -/
noncomputable def workVer (H : Hasher) (V : Nat) (v0 : Nat) (m : List Entry) (sets : List ValueSet) : Nat → Nat
  | 0 => v0
  | j + 1 => open Classical in
    if Effective ((sets.take j).foldl (updAll H) m) (sets.getD j []) then V + j else workVer H V v0 m sets j

theorem workVer_cons (H : Hasher) (V v0 : Nat) (m : List Entry) (ws : ValueSet) (sets : List ValueSet) (j : Nat) :
    workVer H V v0 m (ws :: sets) (j + 1) = workVer H (V + 1) (open Classical in if Effective m ws then V else v0) (updAll H m ws) sets j := by
  induction j with
  | zero => rfl
  | succ j ih =>
    rw [workVer, ih, workVer]
    by_cases h : Effective ((sets.take j).foldl (updAll H) (updAll H m ws)) (sets.getD j [])
    · rw [if_pos h, if_pos (show Effective (((ws :: sets).take (j + 1)).foldl (updAll H) m) ((ws :: sets).getD (j + 1) []) from h)]
      omega
    · rw [if_neg h, if_neg (show ¬ Effective (((ws :: sets).take (j + 1)).foldl (updAll H) m) ((ws :: sets).getD (j + 1) []) from h)]

theorem workVer_congr {H : Hasher} {V v0 v0' : Nat} {m : List Entry} {sets : List ValueSet} {j : Nat}
    (h : (∀ u, u < j → ¬ Effective ((sets.take u).foldl (updAll H) m) (sets.getD u [])) → v0 = v0') :
    workVer H V v0 m sets j = workVer H V v0' m sets j := by
  induction j with
  | zero => exact h (by omega)
  | succ j ih =>
    rw [workVer, workVer]
    split
    · rfl
    · rename_i hn
      refine ih (fun h' => h (fun u hu => ?_))
      by_cases huj : u = j
      · subst huj; exact hn
      · exact h' u (by omega)

theorem foldl_of_not_effective {sets : List ValueSet} : ∀ {m : List Entry} {j : Nat},
    (∀ u, u < j → ¬ Effective ((sets.take u).foldl (updAll H) m) (sets.getD u [])) → (sets.take j).foldl (updAll H) m = m := by
  induction sets with
  | nil => intro m j _; simp
  | cons ws sets ih =>
    intro m j h
    cases j with
    | zero => rfl
    | succ j =>
      have h0 : ¬ Effective m ws := by simpa using h 0 (by omega)
      simp only [List.take_succ_cons, List.foldl_cons]
      rw [updAll_of_not_effective h0]
      refine ih (fun u hu => ?_)
      have := h (u + 1) (by omega)
      simp only [List.take_succ_cons, List.foldl_cons, List.getD_cons_succ] at this
      rwa [updAll_of_not_effective h0] at this

theorem Run.rootVer {infos : List StepInfo} : ∀ {V : Nat} {B m ver}, Run H V B m ver infos → ∀ (j : Nat) (i : StepInfo),
    infos[j]? = some i → ∃ B' ver', Delta H (V + j) B' (((infos.map StepInfo.ws).take j).foldl (updAll H) m) ver'
        (updAll H (((infos.map StepInfo.ws).take j).foldl (updAll H) m) i.ws) i.ver i.N i.S ∧
      Fresh (V + j) (((infos.map StepInfo.ws).take j).foldl (updAll H) m) ver'
        (updAll H (((infos.map StepInfo.ws).take j).foldl (updAll H) m) i.ws) i.ver (i.ws.map Prod.fst) (∀ w ∈ i.ws, w.2 ≠ none)
        (Effective (((infos.map StepInfo.ws).take j).foldl (updAll H) m) i.ws)
        (Renewed H (((infos.map StepInfo.ws).take j).foldl (updAll H) m) i.ws) ∧
      ((((infos.map StepInfo.ws).take j).foldl (updAll H) m) ≠ [] →
        ver' [] = workVer H V (ver []) m (infos.map StepInfo.ws) j) := by
  induction infos with
  | nil => intro V B m ver _ j i h; simp at h
  | cons i rest ih =>
    intro V B m ver hr j i' h
    cases hr with
    | cons d hr hf _ =>
      cases j with
      | zero => simp at h; subst h; exact ⟨_, ver, d, hf, fun _ => rfl⟩
      | succ j =>
        obtain ⟨B', ver', h1, h2, h3⟩ := ih hr j i' (by simpa using h)
        rw [show V + 1 + j = V + (j + 1) by omega] at h1 h2
        refine ⟨B', ver', h1, h2, fun hne => ?_⟩
        rw [h3 hne, List.map_cons, workVer_cons]
        refine workVer_congr (fun hno => ?_)
        have hsame := foldl_of_not_effective hno
        have hm' : updAll H m i.ws ≠ [] := by
          rw [← hsame]; exact hne
        have hrt := hf.root hm'
        split
        · rename_i he; exact hrt.1 he
        · rename_i he; exact hrt.2 he

theorem mem_stAll_iff {infos : List StepInfo} : ∀ {V j : Nat} {k : NodeKey}, (⟨V + j, k⟩ : StaleNodeIndex) ∈ stAll V infos ↔
    ∃ i, infos[j]? = some i ∧ k ∈ i.S := by
  induction infos with
  | nil => intro V j k; simp [stAll]
  | cons i rest ih =>
    intro V j k
    rw [stAll, List.mem_append]
    cases j with
    | zero =>
      simp only [List.getElem?_cons_zero, Option.some.injEq, exists_eq_left']
      constructor
      · rintro (h | h)
        · obtain ⟨k', hk', h⟩ := List.mem_map.1 h
          injection h with _ h; rwa [← h]
        · obtain ⟨j', i', -, h2, -⟩ := mem_stAll h
          simp only at h2; omega
      · intro h; exact .inl (List.mem_map.2 ⟨k, h, rfl⟩)
    | succ j =>
      rw [List.getElem?_cons_succ, ← ih (V := V + 1), show V + 1 + j = V + (j + 1) by omega]
      constructor
      · rintro (h | h)
        · obtain ⟨k', -, h⟩ := List.mem_map.1 h
          injection h with h _; omega
        · exact h
      · exact .inr

theorem effective_iff (hist : List ValueSet) (t : Nat) {ws : ValueSet} (h : hist[t]? = some ws) :
    Effective (entriesAfter H hist t) ws ↔ Spec.Effect hist t := by
  have hl := lists_entriesAfter H hist t
  have key : ∀ k, (∃ e ∈ entriesAfter H hist t, e.1 = k) ↔ Spec.stateAfter Spec.Map.empty hist t k ≠ none := by
    intro k
    constructor
    · rintro ⟨⟨k', vh⟩, he, rfl⟩
      obtain ⟨v, hv, -⟩ := (hl.mem k' vh).1 he
      simp only at hv ⊢
      rw [hv]; simp
    · intro hk
      obtain ⟨v, hv⟩ := Option.ne_none_iff_exists'.1 hk
      exact ⟨(k, H.hash v), (hl.mem _ _).2 ⟨v, hv, rfl⟩, rfl⟩
  constructor
  · rintro ⟨w, hw, h'⟩
    exact ⟨ws, h, w, hw, h'.imp id (key _).1⟩
  · rintro ⟨ws', h1, w, hw, h'⟩
    rw [h] at h1; cases h1
    exact ⟨w, hw, h'.imp id (key _).2⟩

theorem entries_ne_iff (hist : List ValueSet) (t : Nat) :
    entriesAfter H hist t ≠ [] ↔ Spec.stateAfter Spec.Map.empty hist t ≠ Spec.Map.empty := by
  have hl := lists_entriesAfter H hist t
  constructor
  · intro h hc
    obtain ⟨⟨k, vh⟩, he⟩ := List.exists_mem_of_ne_nil _ h
    obtain ⟨v, hv, -⟩ := (hl.mem k vh).1 he
    rw [hc] at hv; cases hv
  · intro h hc
    apply h
    funext k
    cases hk : Spec.stateAfter Spec.Map.empty hist t k with
    | none => rfl
    | some v =>
      have := (hl.mem k _).2 ⟨v, hk, rfl⟩
      rw [hc] at this; cases this

/-- `workVer` in the words of the specification. -/
theorem workVer_iff {hist sets : List ValueSet} {v0 : Nat} (hv0 : 0 < hist.length → v0 = hist.length - 1) {j : Nat}
    (hj : j ≤ sets.length) (hne : entriesAfter H (hist ++ sets) (hist.length + j) ≠ []) (w : Nat) :
    w = workVer H hist.length v0 (entriesAfter H hist hist.length) sets j ↔
      Spec.WorkingRoot (hist ++ sets) hist.length (hist.length + j) w := by
  induction j with
  | zero =>
    have h0 : 0 < hist.length := by
      apply Nat.pos_of_ne_zero
      intro hc
      apply hne
      rw [hc]; simp [entriesAfter]
    rw [workVer, hv0 h0]
    constructor
    · rintro rfl
      exact ⟨by omega, .inl (by omega), fun u h1 h2 h3 => by omega⟩
    · rintro ⟨h1, h2 | h2, h3⟩
      · omega
      · omega
  | succ j ih =>
    have hlt : j < sets.length := by omega
    have hget : (hist ++ sets)[hist.length + j]? = some (sets.getD j []) := by
      rw [List.getElem?_append_right (by omega), show hist.length + j - hist.length = j by omega,
        List.getElem?_eq_getElem hlt, List.getD_eq_getElem?_getD, List.getElem?_eq_getElem hlt]; rfl
    have heff := effective_iff (H := H) (hist ++ sets) (hist.length + j) hget
    rw [entriesAfter_append] at heff
    rw [workVer]
    by_cases he : Effective ((sets.take j).foldl (updAll H) (entriesAfter H hist hist.length)) (sets.getD j [])
    · rw [if_pos he]
      have hE := heff.1 he
      constructor
      · rintro rfl
        exact ⟨by omega, .inr ⟨by omega, hE⟩, fun u h1 h2 h3 => by omega⟩
      · rintro ⟨h1, h2, h3⟩
        apply Classical.byContradiction
        intro hc
        exact h3 _ (by omega) (by omega) (by omega) hE
    · rw [if_neg he]
      have hE := mt heff.2 he
      have hsame : entriesAfter H (hist ++ sets) (hist.length + (j + 1)) = entriesAfter H (hist ++ sets) (hist.length + j) := by
        rw [entriesAfter_append, entriesAfter_append, List.take_add_one, List.foldl_append]
        have : sets[j]?.toList = [sets.getD j []] := by
          rw [List.getD_eq_getElem?_getD, List.getElem?_eq_getElem hlt]; rfl
        rw [this]
        exact updAll_of_not_effective he
      rw [ih (by omega) (by rwa [← hsame])]
      constructor
      · rintro ⟨h1, h2, h3⟩
        refine ⟨by omega, h2, fun u g1 g2 g3 => ?_⟩
        by_cases hu : u = hist.length + j
        · subst hu; exact hE
        · exact h3 u g1 g2 (by omega)
      · rintro ⟨h1, h2, h3⟩
        have hw : w ≠ hist.length + j := by
          rintro rfl
          rcases h2 with h2 | ⟨-, h2⟩
          · omega
          · exact hE h2
        exact ⟨by omega, h2, fun u g1 g2 g3 => h3 u g1 g2 (by omega)⟩

/-- The root entries of a run. -/
theorem Run.roots {hist : List ValueSet} {B ver} {infos : List StepInfo}
    (hr : Run H hist.length B (entriesAfter H hist hist.length) ver infos)
    (hv0 : 0 < hist.length → ver [] = hist.length - 1) (t w : Nat) (ht : hist.length ≤ t) :
    (⟨t, ⟨w, []⟩⟩ : StaleNodeIndex) ∈ stAll hist.length infos ↔
      Spec.stateAfter Spec.Map.empty (hist ++ infos.map StepInfo.ws) t ≠ Spec.Map.empty ∧
      Spec.Effect (hist ++ infos.map StepInfo.ws) t ∧
      Spec.WorkingRoot (hist ++ infos.map StepInfo.ws) hist.length t w := by
  obtain ⟨j, rfl⟩ : ∃ j, t = hist.length + j := ⟨t - hist.length, by omega⟩
  rw [mem_stAll_iff]
  constructor
  · rintro ⟨i, hi, hS⟩
    obtain ⟨B', ver', d, f, hv⟩ := hr.rootVer j i hi
    have hlt := (List.getElem?_eq_some_iff.1 hi).1
    have hget : (hist ++ infos.map StepInfo.ws)[hist.length + j]? = some i.ws := by
      rw [List.getElem?_append_right (by omega), show hist.length + j - hist.length = j by omega, List.getElem?_map, hi]; rfl
    have heff := effective_iff (H := H) _ _ hget
    have hne := entries_ne_iff (H := H) (hist ++ infos.map StepInfo.ws) (hist.length + j)
    have hwi := workVer_iff (H := H) (sets := infos.map StepInfo.ws) hv0 (j := j) (by simp; omega)
    rw [entriesAfter_append] at heff hne hwi
    obtain ⟨h1, h2, h3⟩ := (d.stale w []).1 hS
    have h1' := pres_root.1 h1
    have hw := hv h1'
    have hW := (hwi h1' w).1 (h2.trans hw)
    refine ⟨hne.1 h1', ?_, hW⟩
    apply Classical.byContradiction
    intro hE
    have he := mt heff.1 hE
    have hm' := updAll_of_not_effective (H := H) he
    refine h3 ⟨pres_root.2 (by rw [hm']; exact h1'), ?_⟩
    rw [(f.root (by rw [hm']; exact h1')).2 he, h2]
  · rintro ⟨h1, h2, h3⟩
    obtain ⟨ws, hws, -⟩ := id h2
    rw [List.getElem?_append_right (by omega), show hist.length + j - hist.length = j by omega, List.getElem?_map] at hws
    obtain ⟨i, hi, rfl⟩ := Option.map_eq_some_iff.1 hws
    refine ⟨i, hi, ?_⟩
    obtain ⟨B', ver', d, f, hv⟩ := hr.rootVer j i hi
    have hlt := (List.getElem?_eq_some_iff.1 hi).1
    have hget : (hist ++ infos.map StepInfo.ws)[hist.length + j]? = some i.ws := by
      rw [List.getElem?_append_right (by omega), show hist.length + j - hist.length = j by omega, List.getElem?_map, hi]; rfl
    have heff := effective_iff (H := H) _ _ hget
    have hne := entries_ne_iff (H := H) (hist ++ infos.map StepInfo.ws) (hist.length + j)
    have hwi := workVer_iff (H := H) (sets := infos.map StepInfo.ws) hv0 (j := j) (by simp; omega)
    rw [entriesAfter_append] at heff hne hwi
    have h1' := hne.2 h1
    rw [d.stale]
    refine ⟨pres_root.2 h1', ?_, ?_⟩
    · rw [hv h1']; exact (hwi h1' w).2 h3
    · rintro ⟨g1, g2⟩
      have := (f.root (pres_root.1 g1)).1 (heff.2 h2)
      have := h3.1
      omega

theorem mem_stale_roots {infos : List StepInfo} {B ver} (hr : Reached H ops y) (hb : (setsOf ops).length < 2 ^ 64)
    (h : Run H (setsOf ops).length B (entriesAfter H (setsOf ops) (setsOf ops).length) ver infos)
    (hv0 : 0 < (setsOf ops).length → ver [] = (setsOf ops).length - 1) {op : Op} (hop : infos.map StepInfo.ws = setsOf [op])
    (t w : Nat) : (⟨t, ⟨w, []⟩⟩ : StaleNodeIndex) ∈ y.store.stale ++ stAll (setsOf ops).length infos ↔
      (⟨t, ⟨w, []⟩⟩ : StaleNodeIndex) ∈ y.store.stale ∨ Spec.RetiredBy ops op w t := by
  rw [List.mem_append]
  refine or_congr Iff.rfl ?_
  unfold Spec.RetiredBy
  by_cases ht : (setsOf ops).length ≤ t
  · rw [Run.roots h hv0 t w ht, hop, and_iff_right ht]
  · constructor
    · intro hm
      obtain ⟨j, i, -, h2, -⟩ := mem_stAll hm
      simp only at h2; omega
    · rintro ⟨h, -⟩; exact absurd h ht

/-- C12, roots: a call of `put_value_sets` for the versions `n, n+1, ..` enters the root of version `w` as stale since version
`t` exactly when the set of version `t` has an effect on a map that is not empty and `w` is the version whose root node the call was working
from. So a root is retired once a later version has its own tree, unless the tree was empty; and the copy of the root that a set
without effect stores is never retired by the same call: the root before it is retired instead. -/
theorem C12_roots_retired_exactly (hr : Reached H ops y) {sets : List ValueSet} (hb : (setsOf ops).length + sets.length < 2 ^ 64)
    {hs : List Digest} {s' : Store} (hc : y.store.commit H sets y.next = .ok (hs, s')) (t w : Version) :
    (⟨t, ⟨w, []⟩⟩ : StaleNodeIndex) ∈ s'.stale ↔
      (⟨t, ⟨w, []⟩⟩ : StaleNodeIndex) ∈ y.store.stale ∨ Spec.RetiredBy ops (.commit sets) w t := by
  obtain ⟨hn, hi⟩ := hr.inv (by omega)
  obtain ⟨tc, pss, tc', s'', infos, a0, a1, a2, a3, -, -, a5, ⟨ver, a6, a7⟩, -, -, -, a8, -⟩ :=
    hi.commit' false sets (by unfold preGenesisVersion u64Size; omega)
  have hs' : s'' = s' := by
    have : y.store.commit H sets y.next = .ok (tc'.finish.1, s'') := by
      unfold Store.commit putValueSets
      rw [hn, a0, ok_bind, a1]
      simp only [ok_bind]
      rw [show (tc'.finish).2 = (tc'.finish).2 from rfl] at a2
      simp only [a2, ok_bind]
    rw [hc] at this
    exact (congrArg Prod.snd (Except.ok.inj this)).symm
  subst hs'
  rw [a3.stale, a8]
  exact mem_stale_roots hr (by omega) a6 (fun h => (a7 h).1) (by rw [a5]; simp [setsOf]) t w

/-- The same for `batch_put_value_sets`. -/
theorem C12_batch_roots_retired_exactly (hr : Reached H ops y) {sets : List (List (KeyHash × Value))}
    (hb : (setsOf ops).length + sets.length < 2 ^ 64) {hs : List Digest} {s' : Store}
    (hc : y.store.commitBatch H sets none y.next = .ok (hs, s')) (t w : Version) :
    (⟨t, ⟨w, []⟩⟩ : StaleNodeIndex) ∈ s'.stale ↔
      (⟨t, ⟨w, []⟩⟩ : StaleNodeIndex) ∈ y.store.stale ∨ Spec.RetiredBy ops (.batch sets) w t := by
  obtain ⟨hn, hi⟩ := hr.inv (by omega)
  have hne : ∀ s ∈ sets, s ≠ [] := by
    unfold Store.commitBatch at hc
    obtain ⟨r, h1, -⟩ := bind_ok_inv hc
    exact batch_nonempty h1
  obtain ⟨tc, tc', s'', infos, a0, a1, a2, a3, a5, ⟨ver, a6, a7⟩, -, -, -, a8, -⟩ :=
    hi.batch' sets none hne (cachesFor_none _ _) (by unfold preGenesisVersion u64Size; omega)
  have hs' : s'' = s' := by
    have : y.store.commitBatch H sets none y.next = .ok (tc'.finish.1, s'') := by
      unfold Store.commitBatch batchPutValueSets
      rw [hn, a0, ok_bind]
      have a1' : batchSets H (setsOf ops).length sets (sets.map (fun _ => none)) tc = .ok tc' := a1
      simp only [a1', ok_bind]
      rw [show (tc'.finish).2 = (tc'.finish).2 from rfl] at a2
      simp only [a2, ok_bind]
    rw [hc] at this
    exact (congrArg Prod.snd (Except.ok.inj this)).symm
  subst hs'
  rw [a3.stale, a8]
  exact mem_stale_roots hr (by omega) a6 (fun h => (a7 h).1) (by rw [a5]; simp [setsOf]) t w

/-- One call: the root entries of the stale index, and the root nodes in the store. -/
theorem Reached.step_roots (hr : Reached H ops y) {op : Op} {z : Sys} (hz : y.step H op = .ok z)
    (hr' : Reached H (ops ++ [op]) z) (hb : (setsOf (ops ++ [op])).length < 2 ^ 64) :
    (∀ t w : Nat, (⟨t, ⟨w, []⟩⟩ : StaleNodeIndex) ∈ z.store.stale ↔
      ((⟨t, ⟨w, []⟩⟩ : StaleNodeIndex) ∈ y.store.stale ∨ Spec.RetiredBy ops op w t) ∧ ∀ r, op = .purge r → ¬ t ≤ r) ∧
    (∀ v : Nat, z.store.nodes.get? ⟨v, []⟩ ≠ none ↔
      (y.store.nodes.get? ⟨v, []⟩ ≠ none ∨ ((setsOf ops).length ≤ v ∧ v < (setsOf (ops ++ [op])).length)) ∧
      ∀ r t, op = .purge r → t ≤ r → (⟨t, ⟨v, []⟩⟩ : StaleNodeIndex) ∉ y.store.stale) := by
  have hb0 : (setsOf ops).length < 2 ^ 64 := by
    rw [length_setsOf_append] at hb; omega
  obtain ⟨hn, hi⟩ := hr.inv hb0
  have hlt : ∀ v nd, y.store.nodes.get? ⟨v, []⟩ = some nd → v < (setsOf ops).length := by
    intro v nd h
    obtain ⟨M, W, hI, -⟩ := hr.reach_iff hb0
    exact hI.lt _ _ h
  -- the two kinds of commits
  have main : ∀ {sets : List ValueSet} {s' : Store} {hs : List Digest} {b : TreeUpdateBatch}, z.store = s' →
      (∀ r, op ≠ .purge r) → CommitRes H y.store (setsOf ops) sets (horizon ops).2 hs b s' →
      (∀ t w : Nat, ((⟨t, ⟨w, []⟩⟩ : StaleNodeIndex) ∈ s'.stale ↔
        (⟨t, ⟨w, []⟩⟩ : StaleNodeIndex) ∈ y.store.stale ∨ Spec.RetiredBy ops op w t)) →
      (horizon (ops ++ [op])).2 = (horizon ops).2 →
      (∀ t w : Nat, (⟨t, ⟨w, []⟩⟩ : StaleNodeIndex) ∈ z.store.stale ↔
        ((⟨t, ⟨w, []⟩⟩ : StaleNodeIndex) ∈ y.store.stale ∨ Spec.RetiredBy ops op w t) ∧ ∀ r, op = .purge r → ¬ t ≤ r) ∧
      (∀ v : Nat, z.store.nodes.get? ⟨v, []⟩ ≠ none ↔
        (y.store.nodes.get? ⟨v, []⟩ ≠ none ∨ ((setsOf ops).length ≤ v ∧ v < (setsOf (ops ++ [op])).length)) ∧
        ∀ r t, op = .purge r → t ≤ r → (⟨t, ⟨v, []⟩⟩ : StaleNodeIndex) ∉ y.store.stale) := by
    intro sets s' hs b hzs hnp a3 hroots hhor
    constructor
    · intro t w
      rw [and_iff_left (fun r h => absurd h (hnp r))]
      rw [hzs]; exact hroots t w
    · intro v
      rw [and_iff_left (fun r t h => absurd h (hnp r))]
      by_cases hv : (setsOf ops).length ≤ v
      · constructor
        · intro h
          obtain ⟨nd, h⟩ := Option.ne_none_iff_exists'.1 h
          obtain ⟨M, W, hI, -⟩ := hr'.reach_iff hb
          exact .inr ⟨hv, hI.lt _ _ h⟩
        · rintro (h | ⟨-, h⟩)
          · obtain ⟨nd, h⟩ := Option.ne_none_iff_exists'.1 h
            exact absurd (hlt _ _ h) (by omega)
          · have hro : Readable (ops ++ [op]) v := by
              refine ⟨?_, h⟩
              rw [hhor]
              have := horizon_le hr hb0
              omega
            obtain ⟨ver, hn'⟩ := (hr'.readAt hb hro).rootNode
            intro hc
            have hn2 : (Except.ok (z.store.nodes.get? ⟨v, []⟩) : Except Err (Option Node)) = _ := hn'
            rw [hc] at hn2; cases hn2
      · rw [hzs, a3.nodes]
        have : b.nodeBatch.nodes.get? ⟨v, []⟩ = none := by
          cases hg : b.nodeBatch.nodes.get? ⟨v, []⟩ with
          | none => rfl
          | some nd => exact absurd (a3.nodeVer _ _ hg).1 hv
        rw [this, Option.none_or]
        constructor
        · exact .inl
        · rintro (h | ⟨h, -⟩)
          · exact h
          · exact absurd h hv
  cases op with
  | commit sets =>
    rw [setsOf_commit, List.length_append] at hb
    obtain ⟨hs, b, s', a1, a2, hc, a3, -⟩ := hr.commit sets hb
    have hzs : z.store = s' := by
      unfold Sys.step at hz
      simp only [hc, ok_bind] at hz
      exact congrArg Sys.store (Except.ok.inj hz).symm
    exact main hzs (fun r h => by cases h) a3
      (C12_roots_retired_exactly hr hb hc) (by rw [horizon_snoc_commit])
  | batch sets =>
    have hb' : (setsOf ops).length + sets.length < 2 ^ 64 := by
      rw [length_setsOf_append] at hb; simpa [setsOf] using hb
    unfold Sys.step at hz
    obtain ⟨⟨hs, s'⟩, hc, hz⟩ := bind_ok_inv hz
    have hzs : z.store = s' := (congrArg Sys.store (Except.ok.inj hz).symm)
    have hc' := hc
    unfold Store.commitBatch at hc'
    obtain ⟨⟨hs', b⟩, h1, h2⟩ := bind_ok_inv hc'
    obtain ⟨hs2, b2, s2, g1, g2, g3⟩ := hi.batch sets none (batch_nonempty h1) (cachesFor_none _ _)
      (by unfold preGenesisVersion u64Size; omega)
    rw [hn, g1] at h1
    cases h1
    obtain ⟨s3, h2, h3⟩ := bind_ok_inv h2
    rw [g2] at h2
    cases h2; cases h3
    exact main hzs (fun r h => by cases h) g3
      (C12_batch_roots_retired_exactly hr hb' hc) (by rw [horizon_snoc_batch])
  | purge r =>
    obtain ⟨s', a1, a2, -, a4, -, a6⟩ := hi.purge r
    have hzs : z.store = s' := by
      unfold Sys.step at hz
      simp only [a1, ok_bind] at hz
      exact congrArg Sys.store (Except.ok.inj hz).symm
    have hno : ∀ w t, ¬ Spec.RetiredBy ops (.purge r) w t := by
      rintro w t ⟨ht, -, ⟨ws, h, -⟩, -⟩
      simp only [setsOf, List.append_nil] at h
      have := (List.getElem?_eq_some_iff.1 h).1
      omega
    constructor
    · intro t w
      rw [hzs, a4, List.mem_filter, decide_eq_true_eq]
      constructor
      · rintro ⟨h1, h2⟩
        exact ⟨.inl h1, fun r' h => by cases h; exact h2⟩
      · rintro ⟨h1 | h1, h2⟩
        · exact ⟨h1, h2 r rfl⟩
        · exact absurd h1 (hno _ _)
    · intro v
      have hlen : (setsOf (ops ++ [.purge r])).length = (setsOf ops).length := by rw [setsOf_purge]
      rw [hzs, a6, hlen]
      constructor
      · intro h
        split at h
        · exact absurd rfl h
        · rename_i hno'
          refine ⟨.inl h, fun r' t h1 h2 h3 => hno' ?_⟩
          cases h1
          exact ⟨_, h3, h2, rfl⟩
      · rintro ⟨h1 | h1, h2⟩
        · rw [if_neg]
          · exact h1
          · rintro ⟨⟨t, k⟩, g1, g2, g3⟩
            simp only at g3
            subst g3
            exact h2 r t rfl g2 g1
        · omega

/-- C12, roots, over a whole history: the root of version `w` waits in the stale index for a purge up to version `t` exactly
when some call has retired it as of version `t` and no later purge reached `t`. -/
theorem C12_root_entries_exactly : ∀ {ops : List Op} {y : Sys}, Reached H ops y → (setsOf ops).length < 2 ^ 64 → ∀ t w : Version,
    (⟨t, ⟨w, []⟩⟩ : StaleNodeIndex) ∈ y.store.stale ↔ Spec.RootWaits ops w t := by
  intro ops
  induction ops using list_snoc_ind with
  | h0 =>
    intro y hr _ t w
    obtain ⟨ow, h⟩ := hr
    cases h
    constructor
    · intro h; cases h
    · rintro ⟨pre, op, post, h, -⟩
      cases pre <;> cases h
  | h1 ops op ih =>
    intro z hz hb t w
    obtain ⟨y, hy, hrun⟩ := hz.run_inv
    have hb0 : (setsOf ops).length < 2 ^ 64 := by
      rw [length_setsOf_append] at hb; omega
    obtain ⟨x, h1, h2⟩ := bind_ok_inv (show (y.step H op >>= fun z => Sys.run H [] z) = .ok z from hrun)
    cases h2
    rw [(hy.step_roots h1 hz hb).1, ih hy hb0]
    constructor
    · rintro ⟨⟨pre, o, post, rfl, h3, h4⟩ | h3, h5⟩
      · refine ⟨pre, o, post ++ [op], by simp, h3, fun r hr => ?_⟩
        rcases List.mem_append.1 hr with hr | hr
        · exact h4 r hr
        · exact h5 r (List.mem_singleton.1 hr).symm
      · exact ⟨ops, op, [], rfl, h3, fun r hr => by cases hr⟩
    · rintro ⟨pre, o, post, h3, h4, h5⟩
      rcases List.eq_nil_or_concat post with rfl | ⟨post, o', rfl⟩
      · obtain ⟨rfl, h6⟩ := List.append_inj' h3 rfl
        cases h6
        refine ⟨.inr h4, ?_⟩
        rintro r rfl
        obtain ⟨g1, -, ⟨ws, g2, -⟩, -⟩ := h4
        simp only [setsOf, List.append_nil] at g2
        have := (List.getElem?_eq_some_iff.1 g2).1
        omega
      · rw [List.concat_eq_append] at h3 h5
        rw [← List.cons_append, ← List.append_assoc] at h3
        obtain ⟨rfl, h6⟩ := List.append_inj' h3 rfl
        cases h6
        refine ⟨.inl ⟨pre, o, post, rfl, h4, fun r hr => h5 r (List.mem_append_left _ hr)⟩, ?_⟩
        rintro r rfl
        exact h5 r (by simp)

/-- C12, roots, over a whole history: the store holds the root node of a version exactly when the version has been committed
and no purge has reached the version as of which a call retired it. This accounts for every root node that leaks. -/
theorem C12_stored_roots_exactly : ∀ {ops : List Op} {y : Sys}, Reached H ops y → (setsOf ops).length < 2 ^ 64 → ∀ w : Version,
    y.store.nodes.get? ⟨w, []⟩ ≠ none ↔ w < (setsOf ops).length ∧ ¬ Spec.RootPurged ops w := by
  intro ops
  induction ops using list_snoc_ind with
  | h0 =>
    intro y hr _ w
    obtain ⟨ow, h⟩ := hr
    cases h
    constructor
    · intro h; exact absurd rfl h
    · rintro ⟨h, -⟩; cases h
  | h1 ops op ih =>
    intro z hz hb w
    obtain ⟨y, hy, hrun⟩ := hz.run_inv
    have hb0 : (setsOf ops).length < 2 ^ 64 := by
      rw [length_setsOf_append] at hb; omega
    obtain ⟨x, h1, h2⟩ := bind_ok_inv (show (y.step H op >>= fun z => Sys.run H [] z) = .ok z from hrun)
    cases h2
    rw [(hy.step_roots h1 hz hb).2, ih hy hb0]
    have hlen := length_setsOf_append ops [op]
    have hpast : ∀ {pre o t w}, Spec.RetiredBy pre o w t → w < (setsOf (pre ++ [o])).length := by
      rintro pre o t w ⟨-, -, ⟨ws, g2, -⟩, g3, -⟩
      rw [← setsOf_append] at g2
      have := (List.getElem?_eq_some_iff.1 g2).1
      omega
    constructor
    · rintro ⟨h3, h4⟩
      refine ⟨by omega, ?_⟩
      rintro ⟨pre, o, post, t, r, g1, g2, g3, g4⟩
      rcases List.eq_nil_or_concat post with rfl | ⟨post, o', rfl⟩
      · cases g3
      · rw [List.concat_eq_append] at g1 g3
        rw [← List.cons_append, ← List.append_assoc] at g1
        obtain ⟨rfl, g5⟩ := List.append_inj' g1 rfl
        cases g5
        have hw := hpast g2
        have hle : (setsOf (pre ++ [o])).length ≤ (setsOf (pre ++ o :: post)).length := by
          rw [show pre ++ o :: post = pre ++ [o] ++ post by simp, length_setsOf_append (pre ++ [o]) post]; omega
        have h3' : ¬ Spec.RootPurged (pre ++ o :: post) w := by
          rcases h3 with h3 | h3
          · exact h3.2
          · omega
        by_cases hin : ∃ r', Op.purge r' ∈ post ∧ t ≤ r'
        · obtain ⟨r', g6, g7⟩ := hin
          exact h3' ⟨pre, o, post, t, r', rfl, g2, g6, g7⟩
        · rcases List.mem_append.1 g3 with g3 | g3
          · exact hin ⟨r, g3, g4⟩
          · refine h4 r t (List.mem_singleton.1 g3).symm g4 ?_
            rw [C12_root_entries_exactly hy hb0]
            exact ⟨pre, o, post, rfl, g2, fun r' g6 g7 => hin ⟨r', g6, g7⟩⟩
    · rintro ⟨h3, h4⟩
      refine ⟨?_, ?_⟩
      · by_cases hw : (setsOf ops).length ≤ w
        · exact .inr ⟨hw, h3⟩
        · refine .inl ⟨by omega, ?_⟩
          rintro ⟨pre, o, post, t, r, rfl, g2, g3, g4⟩
          exact h4 ⟨pre, o, post ++ [op], t, r, by simp, g2, List.mem_append_left _ g3, g4⟩
      · rintro r t rfl hle hmem
        rw [C12_root_entries_exactly hy hb0] at hmem
        obtain ⟨pre, o, post, rfl, g2, -⟩ := hmem
        exact h4 ⟨pre, o, post ++ [.purge r], t, r, by simp, g2, by simp, hle⟩

theorem stateAfter_no_effect {hist : List ValueSet} {a b : Nat} (hab : a ≤ b) (h : ∀ u, a ≤ u → u < b → ¬ Spec.Effect hist u) :
    Spec.stateAfter Spec.Map.empty hist b = Spec.stateAfter Spec.Map.empty hist a := by
  induction b with
  | zero => rw [show a = 0 by omega]
  | succ b ih =>
    by_cases hb : a = b + 1
    · rw [hb]
    · rw [← ih (by omega) (fun u h1 h2 => h u h1 (by omega))]
      have hno := h b (by omega) (by omega)
      unfold Spec.stateAfter
      rw [List.take_add_one, List.foldl_append]
      cases hg : hist[b]? with
      | none => rfl
      | some ws =>
        simp only [Option.toList, List.foldl_cons, List.foldl_nil]
        have hall : ∀ w ∈ ws, w.2 = none ∧ Spec.stateAfter Spec.Map.empty hist b w.1 = none := by
          intro w hw
          constructor
          · exact Classical.byContradiction fun hc => hno ⟨ws, hg, w, hw, .inl hc⟩
          · exact Classical.byContradiction fun hc => hno ⟨ws, hg, w, hw, .inr hc⟩
        change Spec.Map.writes (Spec.stateAfter Spec.Map.empty hist b) ws = Spec.stateAfter Spec.Map.empty hist b
        clear hg hno
        induction ws with
        | nil => rfl
        | cons w ws ihw =>
          have hw := hall w (by simp)
          have hself : Spec.Map.write (Spec.stateAfter Spec.Map.empty hist b) w = Spec.stateAfter Spec.Map.empty hist b := by
            funext k
            unfold Spec.Map.write
            split
            · rename_i hk
              rw [hk, hw.2, hw.1]
            · rfl
          show Spec.Map.writes (Spec.Map.write _ w) ws = _
          rw [hself]
          exact ihw (fun w' h' => hall w' (List.mem_cons_of_mem _ h'))

/-- C12 is false for the roots of empty maps, whatever the history: such a root is never deleted. -/
theorem C12_empty_root_never_deleted (hr : Reached H ops y) (hb : (setsOf ops).length < 2 ^ 64) {v : Version}
    (hv : v < (setsOf ops).length) (he : mapAt ops v = Spec.Map.empty) : y.store.nodes.get? ⟨v, []⟩ ≠ none := by
  rw [C12_stored_roots_exactly hr hb]
  refine ⟨hv, ?_⟩
  rintro ⟨pre, op, post, t, r, rfl, ⟨h1, h2, h3, h4, h5, h6⟩, -, -⟩
  apply h2
  rw [stateAfter_no_effect (a := v + 1) (by omega) (fun u g1 g2 => ?_)]
  · unfold mapAt at he
    rw [show pre ++ op :: post = pre ++ [op] ++ post by simp, setsOf_append, setsOf_append] at he
    obtain ⟨ws, g, -⟩ := h3
    have hlt := (List.getElem?_eq_some_iff.1 g).1
    unfold Spec.stateAfter at he ⊢
    rwa [List.take_append_of_le_length (by omega)] at he
  · rcases h5 with h5 | h5
    · exact h6 u (by omega) (by omega) g2
    · exact h6 u (by omega) (by omega) g2

/-- C12 is false for the root before a set without effect, when that set was committed by a call of its own: this root is never
deleted. -/
theorem C12_root_before_noop_never_deleted {pre post : List Op} {ws : ValueSet} {y : Sys}
    (hr : Reached H (pre ++ .commit [ws] :: post) y) (hb : (setsOf (pre ++ .commit [ws] :: post)).length < 2 ^ 64) {v : Version}
    (hv : v + 1 = (setsOf pre).length) (hno : ∀ w ∈ ws, w.2 = none ∧ mapAt pre v w.1 = none) :
    y.store.nodes.get? ⟨v, []⟩ ≠ none := by
  rw [C12_stored_roots_exactly hr hb]
  have hlen : (setsOf (pre ++ Op.commit [ws] :: post)).length = (setsOf pre).length + 1 + (setsOf post).length := by
    rw [setsOf_append]; simp [setsOf]; omega
  refine ⟨by omega, ?_⟩
  rintro ⟨pre', op, post', t, r, heq, ⟨h1, h2, h3, h4, h5, h6⟩, -, -⟩
  -- the call that retires it starts right after `v`, or commits `v`
  rcases List.append_eq_append_iff.1 heq with ⟨l, hl1, hl2⟩ | ⟨l, hl1, hl2⟩
  · -- `pre' = pre ++ l`
    cases l with
    | nil =>
      simp only [List.append_nil] at hl1
      simp only [List.nil_append] at hl2
      subst hl1
      cases hl2
      simp only [setsOf, List.append_nil] at h2 h3 h6
      obtain ⟨ws', g1, w, g2, g3⟩ := h3
      have hlt := (List.getElem?_eq_some_iff.1 g1).1
      have ht : t = (setsOf pre').length := by simp at hlt; omega
      subst ht
      simp at g1
      subst g1
      obtain ⟨g4, g5⟩ := hno w g2
      rcases g3 with g3 | g3
      · exact g3 g4
      · apply g3
        unfold mapAt at g5
        rw [hv] at g5
        unfold Spec.stateAfter at g5 ⊢
        rwa [List.take_append_of_le_length (Nat.le_refl _)]
    | cons o l =>
      simp only [List.cons_append, List.cons.injEq] at hl2
      obtain ⟨rfl, hl2⟩ := hl2
      have : (setsOf pre').length = (setsOf pre).length + 1 + (setsOf l).length := by
        rw [hl1, setsOf_append]; simp [setsOf]; omega
      omega
  · -- `pre = pre' ++ l`
    cases l with
    | nil =>
      simp only [List.append_nil] at hl1
      simp only [List.nil_append] at hl2
      subst hl1
      cases hl2
      simp only [setsOf, List.append_nil] at h2 h3 h6
      obtain ⟨ws', g1, w, g2, g3⟩ := h3
      have hlt := (List.getElem?_eq_some_iff.1 g1).1
      have ht : t = (setsOf pre).length := by simp at hlt; omega
      subst ht
      simp at g1
      subst g1
      obtain ⟨g4, g5⟩ := hno w g2
      rcases g3 with g3 | g3
      · exact g3 g4
      · apply g3
        unfold mapAt at g5
        rw [hv] at g5
        unfold Spec.stateAfter at g5 ⊢
        rwa [List.take_append_of_le_length (Nat.le_refl _)]
    | cons o l =>
      simp only [List.cons_append, List.cons.injEq] at hl2
      obtain ⟨rfl, hl2⟩ := hl2
      obtain ⟨ws', g1, -⟩ := h3
      have hlt := (List.getElem?_eq_some_iff.1 g1).1
      have : (setsOf pre).length = (setsOf pre' ++ setsOf [op]).length + (setsOf l).length := by
        rw [hl1, show pre' ++ op :: l = pre' ++ [op] ++ l by simp, length_setsOf_append, setsOf_append]
      omega

namespace Sample

/-- Two sets in one call: the second has no effect; then one more call, and a purge. -/
def rootOps : List Op :=
  [.commit [[(key 0x10, some [1])], []], .commit [[(key 0x10, some [2])]], .purge 2]

end Sample

/-- In this history the root of version 1 (the copy made by the set without effect) is retired as of version 2 and purged;
the root of version 0 leaks. -/
example : ∃ y, Reached Sample.T Sample.rootOps y ∧ Spec.RootPurged Sample.rootOps 1 ∧ ¬ Spec.RootPurged Sample.rootOps 0 ∧
    y.store.nodes.get? ⟨0, []⟩ ≠ none ∧ y.store.nodes.get? ⟨1, []⟩ = none := by
  obtain ⟨y, hy, h⟩ := Sample.of_check (ops := Sample.rootOps)
    (p := fun s => (s.nodes.get? ⟨0, []⟩).isSome && (s.nodes.get? ⟨1, []⟩).isNone) (by decide +kernel)
  simp only [Bool.and_eq_true, Option.isNone_iff_eq_none] at h
  have h0 : y.store.nodes.get? ⟨0, []⟩ ≠ none := by
    intro hc; rw [hc] at h; exact absurd h.1 (by simp)
  have e0 := (C12_stored_roots_exactly hy (by decide) 0).1 h0
  have e1 := mt (C12_stored_roots_exactly hy (by decide) 1).2 (by rw [h.2]; simp)
  refine ⟨y, hy, ?_, e0.2, h0, h.2⟩
  exact Classical.byContradiction fun hc => e1 ⟨by decide, hc⟩

end Jmt
