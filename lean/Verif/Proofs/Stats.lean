import Verif.Proofs.Reach
/-!
# Node statistics and stale entries of a commit
-/
namespace Jmt
open Spec (Entry)

variable {H : Hasher}

theorem foldG_lt {infos : List StepInfo} : ∀ {V : Nat} {B m ver} {G : Nodes}, Run H V B m ver infos →
    ∀ k : NodeKey, k.version < V → foldG G infos k = G k := by
  induction infos with
  | nil => intro V B m ver G _ k _; rfl
  | cons i rest ih =>
    intro V B m ver G hr k hk
    cases hr with
    | cons d hr hfr hvo =>
      show foldG (overG i.N G) rest k = _
      rw [ih hr k (by omega)]
      unfold overG
      cases hg : i.N.get? k with
      | none => rfl
      | some nd => have := (d.newKey k nd hg).1; omega

theorem foldG_ge {infos : List StepInfo} : ∀ {V : Nat} {B m ver} {G : Nodes}, Run H V B m ver infos →
    ∀ k : NodeKey, V + infos.length ≤ k.version → foldG G infos k = G k := by
  induction infos with
  | nil => intro V B m ver G _ k _; rfl
  | cons i rest ih =>
    intro V B m ver G hr k hk
    simp only [List.length_cons] at hk
    cases hr with
    | cons d hr hfr hvo =>
      show foldG (overG i.N G) rest k = _
      rw [ih hr k (by omega)]
      unfold overG
      cases hg : i.N.get? k with
      | none => rfl
      | some n => have := (d.newKey k n hg).1; omega

theorem foldG_at {infos : List StepInfo} : ∀ {V : Nat} {B m ver} {G : Nodes}, Run H V B m ver infos →
    ∀ (j : Nat) (i : StepInfo), infos[j]? = some i → ∀ k : NodeKey, k.version = V + j → foldG G infos k = (i.N.get? k).or (G k) := by
  induction infos with
  | nil => intro V B m ver G _ j i h; simp at h
  | cons i rest ih =>
    intro V B m ver G hr j i' h k hk
    cases hr with
    | cons d hr hfr hvo =>
      show foldG (overG i.N G) rest k = _
      cases j with
      | zero =>
        simp at h; subst h
        rw [foldG_lt hr k (by omega)]
        unfold overG
        cases i.N.get? k <;> rfl
      | succ j =>
        rw [ih hr j i' (by simpa using h) k (by omega)]
        congr 1
        unfold overG
        cases hg : i.N.get? k with
        | none => rfl
        | some nd => have := (d.newKey k nd hg).1; omega

theorem statAll_get {infos : List StepInfo} : ∀ {V : Nat} {m ver} {G : Nodes}, Run H V (nb G) m ver infos →
    (∀ x ∈ stAll V infos, x.nodeKey.version < x.staleSince ∨ V + infos.length ≤ x.nodeKey.version) → ∀ (j : Nat) (i : StepInfo), infos[j]? = some i →
    (statAll H (nb G) infos)[j]? = some (⟨i.N.length, i.N.countP (fun e => e.2.isLeaf), i.S.length,
      i.S.countP (leafIn (nb (foldG G infos)))⟩ : NodeStats) := by
  induction infos with
  | nil => intro V m ver G _ _ j i h; simp at h
  | cons i rest ih =>
    intro V m ver G hr hx j i' h
    cases hr with
    | cons d hr hfr hvo =>
      cases j with
      | zero =>
        simp at h; subst h
        simp only [statAll, List.getElem?_cons_zero, Option.some.injEq, NodeStats.mk.injEq, true_and]
        apply List.countP_congr
        intro k hk
        have this : foldG G (i :: rest) k = G k := by
          rcases hx ⟨V, k⟩ (List.mem_append_left _ (List.mem_map.2 ⟨k, hk, rfl⟩)) with hv | hv
          · exact foldG_lt (.cons d hr hfr hvo) k hv
          · exact foldG_ge (.cons d hr hfr hvo) k hv
        unfold leafIn nb
        rw [this]
      | succ j =>
        rw [over_nb] at hr
        have := ih hr (fun x hx' => by have := hx x (List.mem_append_right _ hx'); simp only [List.length_cons] at this; omega) j i' (by simpa using h)
        show (statAll H (over i.N (nb G)) rest)[j]? = _
        rw [over_nb]
        exact this

theorem stAll_filter {infos : List StepInfo} : ∀ {V j : Nat} {i : StepInfo}, infos[j]? = some i →
    (stAll V infos).filter (fun x => x.staleSince == V + j) = i.S.map (fun k => ⟨V + j, k⟩) := by
  have hge : ∀ (infos : List StepInfo) (V : Nat), ∀ x ∈ stAll V infos, V ≤ x.staleSince := by
    intro infos
    induction infos with
    | nil => intro V x hx; simp [stAll] at hx
    | cons i rest ih =>
      intro V x hx
      rcases List.mem_append.1 hx with hx | hx
      · obtain ⟨k, -, rfl⟩ := List.mem_map.1 hx; exact Nat.le_refl _
      · have := ih _ x hx; omega
  induction infos with
  | nil => intro V j i h; simp at h
  | cons i rest ih =>
    intro V j i' h
    show ((i.S.map _) ++ stAll (V + 1) rest).filter _ = _
    rw [List.filter_append]
    cases j with
    | zero =>
      simp at h; subst h
      rw [List.filter_eq_self.2, List.filter_eq_nil_iff.2, List.append_nil]
      · rfl
      · intro x hx
        have := hge _ _ x hx
        simp; omega
      · intro x hx
        obtain ⟨k, -, rfl⟩ := List.mem_map.1 hx
        simp
    | succ j =>
      rw [List.filter_eq_nil_iff.2, List.nil_append]
      · have := ih (V := V + 1) (j := j) (i := i') (by simpa using h)
        rw [show V + 1 + j = V + (j + 1) by omega] at this
        exact this
      · intro x hx
        obtain ⟨k, -, rfl⟩ := List.mem_map.1 hx
        simp

theorem nodup_of_nodupKeys {α β : Type} [DecidableEq α] {m : AMap α β} (h : m.NodupKeys) : m.Nodup :=
  (List.pairwise_map.1 h).imp (fun h e => h (congrArg _ e))

/-- Part of a map selected by its keys is determined by lookups. -/
theorem filter_perm_of_get {α β : Type} [DecidableEq α] {m m' : AMap α β} (h : m.NodupKeys) (h' : m'.NodupKeys)
    (p : α → Bool) (he : ∀ k, p k = true → m.get? k = m'.get? k) (hp : ∀ e ∈ m', p e.1 = true) :
    (m.filter (fun e => p e.1)).Perm m' := by
  classical
  rw [List.perm_ext_iff_of_nodup ((nodup_of_nodupKeys h).sublist List.filter_sublist) (nodup_of_nodupKeys h')]
  rintro ⟨k, v⟩
  rw [List.mem_filter, AMap.mem_iff_get? h, AMap.mem_iff_get? h']
  constructor
  · rintro ⟨a, b⟩; rw [← he k b]; exact a
  · intro a
    have := hp (k, v) (AMap.mem_of_get? a)
    exact ⟨by rw [he k this]; exact a, this⟩

/-- Statistics of one commit. -/
theorem stats_of_run {s : Store} {V : Nat} {m ver} {infos : List StepInfo} {N : AMap NodeKey Node} {s' : Store}
    (hr : Run H V (nb s.nodes.get?) m ver infos)
    (hN : N.NodupKeys) (hget : ∀ k, N.get? k = foldG (fun _ => none) infos k)
    (hs' : ∀ k, s'.nodes.get? k = foldG s.nodes.get? infos k)
    (hx : ∀ x ∈ stAll V infos, x.nodeKey.version < x.staleSince ∨ V + infos.length ≤ x.nodeKey.version) {j : Nat} {i : StepInfo} (hj : infos[j]? = some i) :
    (statAll H (nb s.nodes.get?) infos)[j]? = some
      (⟨N.countP (fun e => e.1.version == V + j), N.countP (fun e => e.1.version == V + j && e.2.isLeaf),
       (stAll V infos).countP (fun x => x.staleSince == V + j),
       (stAll V infos).countP (fun x => x.staleSince == V + j &&
         ((s'.nodes.get? x.nodeKey).map Node.isLeaf).getD false)⟩ : NodeStats) := by
  rw [statAll_get hr hx j i hj]
  obtain ⟨f1, -, f3⟩ := hr.facts j i hj
  have hp := filter_perm_of_get hN f1 (fun k => k.version == V + j) (fun k hk => by
    rw [hget, foldG_at hr j i hj k (by simpa using hk)]; simp) (fun e he => by
    simpa using f3 e.1 e.2 (AMap.get?_of_mem f1 he))
  have hst := stAll_filter (V := V) hj
  congr 2
  · rw [List.countP_eq_length_filter]; exact hp.length_eq.symm
  · rw [← hp.countP_eq, List.countP_filter]
    apply List.countP_congr
    intro e _
    rw [Bool.and_comm]
  · rw [List.countP_eq_length_filter, hst, List.length_map]
  · have : ∀ q : StaleNodeIndex → Bool, (stAll V infos).countP (fun x => x.staleSince == V + j && q x) =
        ((stAll V infos).filter (fun x => x.staleSince == V + j)).countP q := by
      intro q
      rw [List.countP_filter]
      apply List.countP_congr
      intro e _
      rw [Bool.and_comm]
    rw [this, hst, List.countP_map]
    apply List.countP_congr
    intro k _
    simp only [Function.comp, leafIn, nb, hs']
    cases foldG s.nodes.get? infos k <;> simp

end Jmt
