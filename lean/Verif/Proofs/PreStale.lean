import Verif.Proofs.UpdateBatch
import Verif.Proofs.PreHistory
/-!
# The stale entries of a run that may start from a pre-genesis tree
-/
namespace Jmt
open Spec (Entry)

section
variable {H : Hasher}

/-- The entries before version `V + j` of a run. -/
def runEntries (H : Hasher) (m : List Entry) (infos : List StepInfo) (j : Nat) : List Entry :=
  ((infos.map StepInfo.ws).take j).foldl (updAll H) m

/-- The node versions before version `V + j` of a run. -/
def runVer (ver : List Nibble → Version) (infos : List StepInfo) : Nat → List Nibble → Version
  | 0 => ver
  | j + 1 => match infos[j]? with
    | some i => i.ver
    | none => ver

theorem runVer_cons (ver) (i : StepInfo) (rest : List StepInfo) {j : Nat} (hj : j ≤ rest.length) :
    runVer ver (i :: rest) (j + 1) = runVer i.ver rest j := by
  cases j with
  | zero => rfl
  | succ j =>
    show (match rest[j]? with | some i => i.ver | none => ver) = match rest[j]? with | some i' => i'.ver | none => i.ver
    rw [List.getElem?_eq_getElem (by omega)]

/-- Each version of a run is one `Delta`. -/
theorem Run.delta {infos : List StepInfo} : ∀ {V : Nat} {B m ver}, Run H V B m ver infos →
    (∀ q, pres m [] q → Old V (ver q)) → V + infos.length ≤ preGenesisVersion → ∀ (j : Nat) (i : StepInfo), infos[j]? = some i →
    (∃ B', Delta H (V + j) B' (runEntries H m infos j) (runVer ver infos j) (runEntries H m infos (j + 1)) i.ver i.N i.S) ∧
      ∀ q, pres (runEntries H m infos j) [] q → Old (V + j) (runVer ver infos j q) := by
  induction infos with
  | nil => intro V B m ver _ _ _ j i hj; simp at hj
  | cons i rest ih =>
    intro V B m ver hr hold hle j i' hj
    simp only [List.length_cons] at hle
    cases hr with
    | cons d hr hfr hvo =>
      cases j with
      | zero =>
        simp only [List.getElem?_cons_zero, Option.some.injEq] at hj
        subst hj
        exact ⟨⟨B, d⟩, hold⟩
      | succ j =>
        have hlt : j + 1 < rest.length + 1 := (List.getElem?_eq_some_iff.1 hj).1
        obtain ⟨⟨B', a1⟩, a2⟩ := ih hr (fun q hq => by
          rcases d.ver_old hold q hq with h | ⟨h1, h2⟩
          · exact ⟨by omega, .inl (by omega)⟩
          · exact ⟨by rcases h2 with h2 | h2 <;> omega, by omega⟩) (by omega) j i' (by simpa using hj)
        rw [show V + (j + 1) = V + 1 + j by omega, runVer_cons ver i rest (by omega)]
        exact ⟨⟨B', a1⟩, a2⟩

theorem mem_stAll_run {infos : List StepInfo} : ∀ {V : Nat} {x : StaleNodeIndex}, x ∈ stAll V infos ↔
    ∃ (j : Nat) (i : StepInfo), infos[j]? = some i ∧ x.staleSince = V + j ∧ x.nodeKey ∈ i.S := by
  intro V x
  refine ⟨mem_stAll, ?_⟩
  induction infos generalizing V with
  | nil => rintro ⟨j, i, h, -⟩; simp at h
  | cons i rest ih =>
    rintro ⟨j, i', h1, h2, h3⟩
    cases j with
    | zero =>
      simp only [List.getElem?_cons_zero, Option.some.injEq] at h1
      subst h1
      exact List.mem_append_left _ (List.mem_map.2 ⟨x.nodeKey, h3, by rw [← Nat.add_zero V, ← h2]⟩)
    | succ j => exact List.mem_append_right _ (ih ⟨j, i', by simpa using h1, by omega, h3⟩)

variable {infos : List StepInfo} {V : Nat} {B : NodeBase} {m : List Entry} {ver : List Nibble → Version}

theorem runVer_succ {j : Nat} {i : StepInfo} (h : infos[j]? = some i) : runVer ver infos (j + 1) = i.ver := by
  show (match infos[j]? with | some i => i.ver | none => ver) = _
  rw [h]

/-- A node of the tree after `j + d` versions that is older than version `V + j` was in the tree after `j` versions. -/
theorem Run.back (hr : Run H V B m ver infos) (hold : ∀ q, pres m [] q → Old V (ver q)) (hle : V + infos.length ≤ preGenesisVersion)
    {j : Nat} : ∀ (d : Nat), j + d ≤ infos.length → ∀ q, pres (runEntries H m infos (j + d)) [] q →
    (∀ u, V + j ≤ u → u < V + (j + d) → runVer ver infos (j + d) q ≠ u) →
    pres (runEntries H m infos j) [] q ∧ runVer ver infos j q = runVer ver infos (j + d) q := by
  intro d
  induction d with
  | zero => intro _ q hq _; exact ⟨hq, rfl⟩
  | succ d ih =>
    intro hd q hq hne
    obtain ⟨i, hi⟩ : ∃ i, infos[j + d]? = some i := ⟨infos[j + d], List.getElem?_eq_getElem (by omega)⟩
    obtain ⟨⟨B', dl⟩, -⟩ := hr.delta hold hle (j + d) i hi
    rw [show j + (d + 1) = j + d + 1 by omega] at hq hne ⊢
    rw [runVer_succ hi] at hne ⊢
    obtain ⟨h1, h2, -⟩ := dl.old q hq (hne (V + (j + d)) (by omega) (by omega))
    rw [h2] at hne ⊢
    exact ih (by omega) q h1 (fun u hu hu' => hne u hu (by omega))

/-- A stale entry names a node of the tree before it, older than the version it was made at. -/
theorem Run.stale_old (hr : Run H V B m ver infos) (hold : ∀ q, pres m [] q → Old V (ver q)) (hle : V + infos.length ≤ preGenesisVersion)
    {j : Nat} {i : StepInfo} (hi : infos[j]? = some i) {k : NodeKey} (hk : k ∈ i.S) :
    pres (runEntries H m infos j) [] k.path ∧ k.version = runVer ver infos j k.path ∧ Old (V + j) k.version ∧
    ¬ (pres (runEntries H m infos (j + 1)) [] k.path ∧ i.ver k.path = k.version) := by
  obtain ⟨⟨B', d⟩, h2⟩ := hr.delta hold hle j i hi
  obtain ⟨w, q⟩ := k
  obtain ⟨a1, rfl, a3⟩ := (d.stale w q).1 hk
  exact ⟨a1, rfl, h2 q a1, a3⟩

/-- A node entered at one version is in no later tree. -/
theorem Run.stale_gone (hr : Run H V B m ver infos) (hold : ∀ q, pres m [] q → Old V (ver q)) (hle : V + infos.length ≤ preGenesisVersion)
    {j : Nat} {i : StepInfo} (hi : infos[j]? = some i) {k : NodeKey} (hk : k ∈ i.S) {l : Nat} (hl : j < l) (hll : l ≤ infos.length) :
    ¬ (pres (runEntries H m infos l) [] k.path ∧ runVer ver infos l k.path = k.version) := by
  obtain ⟨-, -, ho, hno⟩ := hr.stale_old hold hle hi hk
  rintro ⟨h1, h2⟩
  obtain ⟨d, rfl⟩ : ∃ d, l = j + 1 + d := ⟨l - (j + 1), by omega⟩
  obtain ⟨h3, h4⟩ := hr.back hold hle d hll k.path h1 (fun u hu hu' => by
    rw [h2]
    rcases ho.2 with h | h <;> omega)
  apply hno
  rw [runVer_succ hi] at h4
  exact ⟨h3, by rw [h4, h2]⟩

theorem Run.stale_nodup (hr : Run H V B m ver infos) (hold : ∀ q, pres m [] q → Old V (ver q)) (hle : V + infos.length ≤ preGenesisVersion) :
    ((stAll V infos).map StaleNodeIndex.nodeKey).Nodup := by
  suffices h : ∀ j, j ≤ infos.length → ((stAll V (infos.take j)).map StaleNodeIndex.nodeKey).Nodup by
    have := h infos.length (Nat.le_refl _)
    rwa [List.take_length] at this
  have happ : ∀ (L : List StepInfo) (V : Nat) (i : StepInfo), stAll V (L ++ [i]) = stAll V L ++ i.S.map (fun k => ⟨V + L.length, k⟩) := by
    intro L
    induction L with
    | nil => intro V i; simp [stAll]
    | cons a L ih =>
      intro V i
      show _ ++ stAll (V + 1) (L ++ [i]) = _
      rw [ih, ← List.append_assoc, List.length_cons, show V + 1 + L.length = V + (L.length + 1) by omega]
      rfl
  intro j
  induction j with
  | zero => intro _; simp [stAll]
  | succ j ih =>
    intro hj
    obtain ⟨i, hi⟩ : ∃ i, infos[j]? = some i := ⟨infos[j], List.getElem?_eq_getElem (by omega)⟩
    rw [List.take_succ, hi, Option.toList_some, happ, List.map_append, List.map_map, List.nodup_append]
    obtain ⟨⟨B', d⟩, -⟩ := hr.delta hold hle j i hi
    refine ⟨ih (by omega), ?_, ?_⟩
    · have : (StaleNodeIndex.nodeKey ∘ fun k => (⟨V + (List.take j infos).length, k⟩ : StaleNodeIndex)) = id := rfl
      rw [this, List.map_id]
      exact d.staleNodup
    · rintro a ha b hb rfl
      obtain ⟨x, hx, hxa⟩ := List.mem_map.1 ha
      obtain ⟨j', i', h1, h2, h3⟩ := mem_stAll hx
      obtain ⟨b', hb', hbb⟩ := List.mem_map.1 hb
      simp only [Function.comp] at hbb
      subst hbb
      have hlt : j' < j := by
        have := (List.getElem?_eq_some_iff.1 h1).1
        rw [List.length_take] at this; omega
      rw [List.getElem?_take_of_lt hlt] at h1
      rw [hxa] at h3
      have hs := hr.stale_old hold hle hi hb'
      exact hr.stale_gone hold hle h1 h3 hlt (by omega) ⟨hs.1, hs.2.1.symm⟩

theorem foldG_some {G : Nodes} {k : NodeKey} (infos : List StepInfo) : ∀ {G : Nodes}, (∃ n, G k = some n) → ∃ n, foldG G infos k = some n := by
  induction infos with
  | nil => intro G h; exact h
  | cons i rest ih =>
    intro G h
    refine ih ?_
    unfold overG
    cases i.N.get? k with
    | some n => exact ⟨n, rfl⟩
    | none => exact h

/-- The nodes named by stale entries are stored. -/
theorem Run.stale_stored {infos : List StepInfo} : ∀ {V : Nat} {G : Nodes} {m ver}, Run H V (nb G) m ver infos →
    (∀ q, pres m [] q → Old V (ver q)) → V + infos.length ≤ preGenesisVersion → (∀ q, pres m [] q → ∃ n, G ⟨ver q, q⟩ = some n) →
    ∀ x ∈ stAll V infos, ∃ n, foldG G infos x.nodeKey = some n := by
  induction infos with
  | nil => intro V G m ver _ _ _ _ x hx; simp [stAll] at hx
  | cons i rest ih =>
    intro V G m ver hr hold hle hst x hx
    simp only [List.length_cons] at hle
    cases hr with
    | cons d hr hfr hvo =>
      rcases List.mem_append.1 hx with hx | hx
      · obtain ⟨k, hk, rfl⟩ := List.mem_map.1 hx
        obtain ⟨w, q⟩ := k
        obtain ⟨a1, rfl, -⟩ := (d.stale w q).1 hk
        exact foldG_some (G := G) (i :: rest) (hst q a1)
      · have hh := d.holds hold
        rw [over_nb] at hr hh
        have hpos : 0 < rest.length := by
          cases rest with
          | nil => simp [stAll] at hx
          | cons a l => simp
        refine ih hr (fun q hq => ?_) (by omega) (fun q hq => ⟨_, Except.ok.inj (hh q hq)⟩) x hx
        rcases d.ver_old hold q hq with h | ⟨h1, h2⟩
        · exact ⟨by omega, .inl (by omega)⟩
        · exact ⟨by rcases h2 with h2 | h2 <;> omega, by omega⟩

end
end Jmt
